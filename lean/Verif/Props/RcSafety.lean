import Verif.Rc.Proofs.Exclusive
/-!
# Safety and lifetime of items and memory (C14-C17, C31)

`Rc.after umax zst ops` is the state the modelled code is in after the calls `ops`, or the
undefined behaviour it ran into; `Rc.answer umax zst ops op` is what call `op` returns then.
`World.after umax zst ops` lists the handles the same calls leave according to the
specification (`Verif.Spec.World`).
-/

namespace Verif
open Spec Rc
variable {α : Type} {umax : Nat} {zst : Bool} {ops : List (Op α)} {s : State α}

/-! ## C14 -/

/-- C14: no history of calls causes undefined behaviour. -/
theorem C14_safe (umax : Nat) (zst : Bool) (ops : List (Op α)) : ∃ s, after umax zst ops = .ok s := by
  obtain ⟨s, e, _⟩ := after_rel umax zst ops; exact ⟨s, e⟩

/-- C14: every call returns what the specification says, and leaves the items and the memory
that the specification says. -/
theorem C14_refines (umax : Nat) (zst : Bool) (ops : List (Op α)) :
    ∃ s, run umax ⟨Heap.empty zst, []⟩ ops = .ok (s, ((World.empty zst).run umax ops).2) ∧
      s.h.slot = (World.after umax zst ops).items ∧ s.h.sk.mem = (World.after umax zst ops).mem ∧
      ∀ k, (s.get k).isSome = ((World.after umax zst ops).get k).isSome := by
  obtain ⟨s, e, R⟩ := run_sim ops (Rel.init (α := α) umax zst)
  refine ⟨s, e, R.core.items.symm, R.core.mem.symm, fun k => ?_⟩
  rcases R.at_ k with ⟨h1, h2⟩ | ⟨x, y, h1, h2, _⟩
  · rw [h1]; show _ = (((World.empty zst).run umax ops).1.get k).isSome; rw [h2]; rfl
  · rw [h1]; show _ = (((World.empty zst).run umax ops).1.get k).isSome; rw [h2]; rfl

/-- A handle of the code and one of the specification are of the same type. -/
def SameType : Handle → Hand → Prop
  | .strong _ _, .shared _ _ => True
  | .weak (some _) _, .weak _ _ => True
  | .weak none _, .weakNone => True
  | .uniq _, .uniq _ _ _ => True
  | .iter _, .iter _ _ _ => True
  | .parts _ _ _, .parts _ _ _ => True
  | _, _ => False

/-- C14: every handle shows the range of memory that the specification says. -/
theorem C14_handles (h : after umax zst ops = .ok s) {k : Nat} {x : Handle} (hk : s.get k = some x) :
    ∃ y, (World.after umax zst ops).get k = some y ∧ SameType x y ∧
      handleRange umax s.h x = .ok (((World.after umax zst ops).view y).map fun (b, r) => (b, r.off, r.len)) := by
  have R := Rel.of_after h
  rcases R.at_ k with ⟨e, _⟩ | ⟨x', y, e1, e2, hr⟩
  · rw [hk] at e; cases e
  · rw [hk] at e1; cases e1
    refine ⟨y, e2, by cases hr <;> trivial, ?_⟩
    rcases handleRange_ok R hk hr with ⟨h1, h2⟩ | ⟨b, r, h1, h2, _⟩
    · rw [h1, h2]; rfl
    · rw [h1, h2]; rfl

/-- A history with subslices, weak handles, a unique slice and an iterator. -/
def demo : List (Op Nat) :=
  [.rcNew [10, 11, 12, 13], .cloneSide .L 0, .downgrade 1, .cloneSide .R 1, .drop 0, .intoMut 1, .drop 3, .intoMut 1, .upgrade 2,
    .intoIter 1, .next .front 1]

example : ((World.empty false).run 100 demo).2 =
    [.handle, .handle, .handle, .handle, .done, .err, .done, .done, .none, .done, .item 10] := by decide
example : (run 100 ⟨Heap.empty false, []⟩ demo).map (·.2) = .ok ((World.empty false).run 100 demo).2 := by rfl

/-! ## C15 -/

/-- C15: after every call, an item is alive if and only if some handle shows it. Handles are
`RcSlice`s, `RcSliceMut`s and iterators; a `WeakSlice` shows nothing (`C15_weak_shows_nothing`). -/
theorem C15_alive_iff_shown (h : after umax zst ops = .ok s) (b i : Nat) :
    (∃ a, s.h.slot b i = .live a) ↔ ∃ k, s.Sees umax k b i := by
  have R := Rel.of_after h
  constructor
  · rintro ⟨a, ha⟩
    have I : Inv s.h (tabToks umax s.hs) := by simpa using R.inv
    obtain ⟨k, y, h1, h2⟩ := World.anyHand_iff.1 ((cov_iff R b i).1 (I.live_cov (tabToks_quiet umax s.hs) ha))
    exact ⟨k, R.sees_iff.2 ⟨y, h1, h2⟩⟩
  · rintro ⟨k, hk⟩
    obtain ⟨y, h1, h2⟩ := R.sees_iff.1 hk
    rw [← R.core.items]; exact R.live h1 h2

/-- C15: a `WeakSlice` shows nothing. -/
theorem C15_weak_shows_nothing {k : Nat} {d : Option Nat} {g : Nat} (h : s.get k = some (.weak d g)) (b i : Nat) : ¬ s.Sees umax k b i := by
  rintro ⟨x, off, len, h1, h2, _⟩
  rw [h] at h1; cases h1; cases h2

/-- C15: what handles show in the code is what they cover in the specification. -/
theorem C15_shows {k b i : Nat} (h : after umax zst ops = .ok s) :
    s.Sees umax k b i ↔ ∃ y, (World.after umax zst ops).get k = some y ∧ (World.after umax zst ops).covers b i y = true :=
  (Rel.of_after h).sees_iff

/-- C15: the call after which no handle shows an item any more drops it or hands it out. -/
theorem C15_drop_moment {s' : State α} {op : Op α} {b i : Nat} {a : α} (h : after umax zst ops = .ok s)
    (h' : after umax zst (ops ++ [op]) = .ok s') (ha : s.h.slot b i = .live a) :
    ((∃ k, s'.Sees umax k b i) → ∃ a', s'.h.slot b i = .live a') ∧
    ((¬ ∃ k, s'.Sees umax k b i) → s'.h.slot b i = .dropped ∨
      (s'.h.slot b i = .moved ∧ answer umax zst ops op = .ok (.item a) ∧ ∃ e k, op = .next e k)) := by
  refine ⟨(C15_alive_iff_shown h' b i).2, fun hc => ?_⟩
  have R := Rel.of_after h
  have R' := Rel.of_after h'
  have hl : ¬ ∃ a, s'.h.slot b i = .live a := fun hh => hc ((C15_alive_iff_shown h' b i).1 hh)
  rw [← R'.core.items, World.after_snoc] at hl ⊢
  rw [← R.core.items] at ha
  rcases World.call_items umax R.wf op b i with ht | ⟨hd, _⟩
  · cases ht with
    | same e => exact absurd ⟨a, e.trans ha⟩ hl
    | fresh e _ => rw [R.wf.fresh b i (by omega)] at ha; cases ha
    | write k a a' h1 h2 h3 h4 h5 h6 => exact absurd ⟨_, h4⟩ hl
    | move e k a' h1 h2 h3 h4 h5 =>
      rw [ha] at h3; cases h3
      exact .inr ⟨h4, by rw [answer_eq]; exact congrArg _ h2, e, k, h1⟩
  · exact .inl hd

/-- C15: an item that was dropped or handed out is never dropped, handed out or read again:
its state never changes. -/
theorem C15_once {s' : State α} {b i : Nat} (h : after umax zst ops = .ok s) (hd : s.h.slot b i = .dropped ∨ s.h.slot b i = .moved)
    (more : List (Op α)) (h' : after umax zst (ops ++ more) = .ok s') : s'.h.slot b i = s.h.slot b i := by
  have R := Rel.of_after h
  have R' := Rel.of_after h'
  rw [← R.core.items] at hd ⊢
  rw [← R'.core.items]
  clear h h' R R'
  induction more generalizing ops with
  | nil => rw [List.append_nil]
  | cons op more ih =>
    have e := World.call_dead umax (after_wf umax zst ops) op hd
    have e2 : ops ++ op :: more = (ops ++ [op]) ++ more := by simp
    rw [e2, ih (ops := ops ++ [op]) (by rw [World.after_snoc, e]; exact hd), World.after_snoc, e]

example : (after 100 false demo).map (fun s => (List.range 5).map (s.h.slot 0)) =
    .ok [.moved, .live 11, .dropped, .dropped, .absent] := by rfl

/-! ## C16 -/

/-- C16: when all handles are gone, so is everything else: items, memory, and every internal
object with all its references. -/
theorem C16_no_leak (h : after umax zst ops = .ok s) (hg : ∀ k, s.get k = none) :
    (∀ b i a, s.h.slot b i ≠ .live a) ∧ (∀ b, s.h.sk.mem b = false) ∧ (∀ x, s.h.sk.node x = none) ∧
      (∀ x, s.h.strong x = 0) ∧ (∀ x, s.h.weak x = 0) := by
  have R := Rel.of_after h
  have e : tabToks umax s.hs ++ [] = [] := by
    rw [List.append_nil, List.eq_nil_iff_forall_not_mem]
    intro t ht
    obtain ⟨k, x, hk, _⟩ := mem_tabToks.1 ht
    have := hg k
    rw [State.get, hk] at this; cases this
  have I := R.inv
  rw [e] at I
  obtain ⟨h1, h2, h3, h4, h5⟩ := I.nothing
  exact ⟨h5, h4, h1, h2, h3⟩

example : ∃ s, after 100 false (demo ++ [.drop 1, .drop 2]) = .ok s ∧ (∀ k, s.get k = none) ∧ s.hs.length = 4 := by
  refine ⟨(after 100 false (demo ++ [.drop 1, .drop 2])).toOption.get (by decide), by rfl, fun k => ?_, by decide⟩
  have : ((after 100 false (demo ++ [.drop 1, .drop 2])).toOption.get (by decide)).hs = [none, none, none, none] := by rfl
  simp only [State.get, this]
  rcases k with _ | _ | _ | _ | k <;> rfl

/-! ## C17 -/

/-- C17: the memory of a buffer is there exactly as long as some handle keeps it. -/
theorem C17_memory_iff_kept (h : after umax false ops = .ok s) (b : Nat) :
    s.h.sk.mem b = true ↔ (World.after umax false ops).Kept b := by
  have R := Rel.of_after h
  have hz : s.h.sk.zst = false := by
    rw [← R.core.zst]
    have : ∀ (ops : List (Op α)) (w : World α), (w.run umax ops).1.zst = w.zst := by
      intro ops
      induction ops with
      | nil => exact fun _ => rfl
      | cons op ops ih => intro w; exact (ih _).trans (World.act_zst umax w op)
    exact this ops _
  have I : Inv s.h (tabToks umax s.hs) := by simpa using R.inv
  constructor
  · intro hm
    exact World.anyHand_iff.1 ((hold_iff R b).1 (I.mem_hold (tabToks_quiet umax s.hs) hm))
  · intro hk
    obtain ⟨t, ht, hc⟩ := (hold_iff R b).2 (World.anyHand_iff.2 hk)
    exact I.hold_mem ht hc hz

/-- C17: at every moment, also inside destructors and between the steps of a call, the
memory of an item that is alive is there. -/
theorem C17_memory_outlives_items {c : Config α} (h : Config.Reach umax false c) {b i : Nat} {a : α} (ha : c.st.h.slot b i = .live a) :
    c.st.h.sk.mem b = true := by
  obtain ⟨w, hw, R⟩ := reach_sim h
  refine R.inv.live_mem ha ?_
  rw [← R.core.zst]
  clear R
  induction hw with
  | init => rfl
  | sweep w w' _ hs ih => rw [hs.same]; exact ih
  | call w op r _ hm ih =>
    rcases hm with rfl | hm
    · rw [World.act_zst]; exact ih
    · cases op <;> simp only at hm
      · obtain ⟨_, rfl⟩ := hm; exact ih
      · obtain ⟨_, rfl⟩ := hm; exact ih
      · obtain ⟨_, _, _, rfl, _⟩ := hm; exact ih

/-- C17: memory that was freed is never allocated or freed again. -/
theorem C17_freed_once {s' s'' : State α} {b : Nat} (m1 m2 : List (Op α)) (h : after umax zst ops = .ok s)
    (h' : after umax zst (ops ++ m1) = .ok s') (h'' : after umax zst (ops ++ m1 ++ m2) = .ok s'')
    (hm : s.h.sk.mem b = true) (hm' : s'.h.sk.mem b = false) : s''.h.sk.mem b = false := by
  have R := Rel.of_after h
  have R' := Rel.of_after h'
  have R'' := Rel.of_after h''
  rw [← R.core.mem] at hm; rw [← R'.core.mem] at hm'; rw [← R''.core.mem]
  have hb : b < (World.after umax zst ops).nbuf := by
    apply Nat.lt_of_not_le; intro hle
    rw [R.wf.freshMem b hle] at hm; cases hm
  have hmono : ∀ (m ops : List (Op α)), (World.after umax zst ops).nbuf ≤ (World.after umax zst (ops ++ m)).nbuf := by
    intro m
    induction m with
    | nil => intro ops; rw [List.append_nil]; exact Nat.le_refl _
    | cons op m ih =>
      intro ops
      have e2 : ops ++ op :: m = (ops ++ [op]) ++ m := by simp
      rw [e2]
      refine Nat.le_trans ?_ (ih (ops ++ [op]))
      rw [World.after_snoc]; exact World.call_nbuf umax _ op
  have hb' := Nat.lt_of_lt_of_le hb (hmono m1 ops)
  clear h h' h'' R R' R'' hm hb
  generalize ops ++ m1 = o at hm' hb'
  induction m2 generalizing o with
  | nil => rw [List.append_nil]; exact hm'
  | cons op m ih =>
    have e2 : o ++ op :: m = (o ++ [op]) ++ m := by simp
    rw [e2]
    refine ih _ ?_ ?_
    · rw [World.after_snoc]; exact World.call_mem umax op hb' hm'
    · rw [World.after_snoc]; exact Nat.lt_of_lt_of_le hb' (World.call_nbuf umax _ op)

example : (after 100 false (demo ++ [.drop 1])).map (fun s => s.h.sk.mem 0) = .ok false ∧
    (after 100 false demo).map (fun s => s.h.sk.mem 0) = .ok true := ⟨rfl, rfl⟩

/-! ## C31 -/

/-- C31: when destructors of items make arbitrary calls, in the middle of other calls, no
step ever causes undefined behaviour. -/
theorem C31_reentrant_safe {c : Config α} (h : Config.Reach umax zst c) {r : Except UB (Config α)} (st : Config.Step umax c r) :
    ∃ c', r = .ok c' := step_ok h st

/-- C31: what happens is what the specification allows: calls act as always, except that the
answers of `get_mut`, `into_mut` and `upgrade` may depend on how far a tear-down has got;
between calls only items that no handle covers are dropped, and only memory that no handle
keeps is freed. -/
theorem C31_reentrant_refines {c : Config α} (h : Config.Reach umax zst c) :
    ∃ w : World α, World.Evolves umax zst w ∧ c.st.h.slot = w.items ∧ c.st.h.sk.mem = w.mem ∧
      ∀ k x, w.get k = some x → ∀ b i, w.covers b i x = true → ∃ a, c.st.h.slot b i = .live a := by
  obtain ⟨w, hw, R⟩ := reach_sim h
  refine ⟨w, hw, R.core.items.symm, R.core.mem.symm, fun k x h1 b i h2 => ?_⟩
  rw [← R.core.items]; exact R.live h1 h2

/-- C31: at every moment, two handles that overlap are `RcSlice`s of the same family. -/
theorem C31_reentrant_disjoint {c : Config α} (h : Config.Reach umax zst c) :
    ∃ w : World α, World.Evolves umax zst w ∧ (∀ k, (c.st.get k).isSome = (w.get k).isSome) ∧
      ∀ k k' x x' b i, w.get k = some x → w.get k' = some x' → k ≠ k' → w.covers b i x = true → w.covers b i x' = true →
        ∃ f p p', x = .shared f p ∧ x' = .shared f p' ∧ Related p p' := by
  obtain ⟨w, hw, R⟩ := reach_sim h
  refine ⟨w, hw, fun k => ?_, fun k k' x x' b i h1 h2 h3 h4 h5 => R.overlap h1 h2 h3 h4 h5⟩
  rcases R.at_ k with ⟨h1, h2⟩ | ⟨x, y, h1, h2, _⟩
  · rw [h1, h2]; rfl
  · rw [h1, h2]; rfl

/-- Follow a schedule: `none` performs a pending drop, `some op` makes a call. -/
def follow (umax : Nat) : Config α → List (Option (Op α)) → Except UB (Config α)
  | c, [] => .ok c
  | c, some op :: l =>
    if c.tasks = [] ∨ c.tasks.head? = some .userCode then
      match exec umax c.st op with
      | .ok (st, _, new) => follow umax ⟨st, new ++ c.tasks⟩ l
      | .error e => .error e
    else .ok c
  | c, none :: l =>
    match c.tasks with
    | [] => .ok c
    | t :: ts =>
      match taskStep c.st.h t with
      | .ok (h, new) => follow umax ⟨{ c.st with h }, new ++ ts⟩ l
      | .error e => .error e

theorem follow_reach (l : List (Option (Op α))) : ∀ {c c' : Config α}, Config.Reach umax zst c → follow umax c l = .ok c' →
    Config.Reach umax zst c' := by
  induction l with
  | nil => intro c c' h e; cases e; exact h
  | cons o l ih =>
    intro c c' h e
    cases o with
    | some op =>
      simp only [follow] at e
      split at e
      · next hp =>
        split at e
        · next st o new he =>
          refine ih (Config.Reach.step c _ h ?_) e
          have := Config.Step.call (umax := umax) c.st c.tasks op hp
          rw [he] at this; exact this
        · cases e
      · cases e; exact h
    | none =>
      simp only [follow] at e
      split at e
      · cases e; exact h
      · next t ts ht =>
        split at e
        · next h' new he =>
          refine ih (Config.Reach.step c _ h ?_) e
          have := Config.Step.task (umax := umax) c.st t ts
          rw [he] at this
          have hc : c = ⟨c.st, t :: ts⟩ := by rw [← ht]
          rw [hc]; exact this
        · cases e

/-- While the first of two items is being dropped, its destructor clones and converts other
handles and drops a third. -/
def nested : List (Option (Op Nat)) :=
  [some (.rcNew [1, 2]), some (.rcNew [3]), some (.downgrade 0), some (.drop 0), none, none,
    some (.upgrade 2), some (.clone 1), some (.drop 1), none, none, none, some (.intoMut 3)]

example : ∃ c, Config.Reach 100 false c ∧ c.tasks.length = 2 ∧ c.st.h.slot 0 0 = .dropped ∧ c.st.h.slot 0 1 = .live 2 := by
  refine ⟨(follow 100 (Config.init false) nested).toOption.get (by decide), follow_reach nested .init (by rfl), by decide, by decide, by decide⟩

end Verif
