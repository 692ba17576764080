import Verif.Arc.Proofs.SeqFam
import Verif.Rc.Program
import Verif.Rc.Proofs.Exclusive
/-!
# C42: used from one thread, `ArcSlice` behaves like `RcSlice`

A program is a list of calls (`Spec.Op`). `Rc.run` runs it with the model of the `RcSlice`
types, `Seq.Run` with the model of the `ArcSlice` types: each call begins, makes all of its
steps and returns before the next one begins.
-/

namespace Verif
open Arc
open Spec (Obs Slot Side End)
variable {α : Type} {umax : Nat} {zst : Bool}

/-! ## A program has one outcome -/

theorem steps_fin {c : Conf α} {i : Nat} {cl : Call α} {r : Res α} (h : c.calls[i]? = some cl) (ht : cl.tasks = []) (hp : cl.pc = .done r)
    (n : Nat) : steps c i n = .ok c := by
  have e : c.step i = .ok c := by
    simp only [Conf.step, h, callStep, ht, hp, pcStep, bind, Except.bind, pure, Except.pure]
    have h1 : { cl with pc := .done r, tasks := [] } = cl := by cases cl; simp only at ht hp; subst ht hp; rfl
    simp only [h1, List.map_nil, List.append_nil, List.length_nil, List.range'_zero]
    congr 1
    cases c with
    | mk a hs calls =>
      simp only [Conf.mk.injEq, true_and]
      apply List.ext_getElem?
      intro j
      rw [List.getElem?_set]
      split
      · next hj =>
        subst hj
        have hl : i < calls.length := by
          rcases Nat.lt_or_ge i calls.length with hl | hl
          · exact hl
          · simp only at h; rw [List.getElem?_eq_none hl] at h; cases h
        rw [if_pos hl]; exact h.symm
      · rfl
  induction n with
  | zero => rfl
  | succ n ih => simp only [steps, e, bind, Except.bind]; exact ih

theorem Ret.det {c c' c'' : Conf α} {op : Op α} {r r' : Res α} {o o' : List Nat} (h : Ret c op r o c') (h' : Ret c op r' o' c'') :
    c' = c'' ∧ r = r' ∧ o = o' := by
  obtain ⟨c1, n, cl, s1, e1, g1, t1, p1, o1⟩ := h
  obtain ⟨c2, n', cl', s2, e2, g2, t2, p2, o2⟩ := h'
  rw [s1] at s2; cases s2
  have hc : c' = c'' := by
    rcases Nat.le_total n n' with hl | hl
    · obtain ⟨k, rfl⟩ := Nat.exists_eq_add_of_le hl
      rw [steps_add e1, steps_fin g1 t1 p1] at e2; cases e2; rfl
    · obtain ⟨k, rfl⟩ := Nat.exists_eq_add_of_le hl
      rw [steps_add e2, steps_fin g2 t2 p2] at e1; cases e1; rfl
  subst hc
  rw [g1] at g2; cases g2
  rw [p1] at p2; cases p2
  exact ⟨rfl, rfl, o1.symm.trans o2⟩

theorem Does.det {s s1 s2 : Seq α} {op : Spec.Op α} {o1 o2 : Obs α} (h1 : s.Does umax op o1 s1) (h2 : s.Does umax op o2 s2) :
    o1 = o2 ∧ s1 = s2 := by
  cases h1 <;> cases h2 <;> grind [Seq.takes, → Ret.det]

theorem Run.det {s s1 s2 : Seq α} {ops : List (Spec.Op α)} {os1 os2 : List (Obs α)} (h1 : s.Run umax ops os1 s1)
    (h2 : s.Run umax ops os2 s2) : os1 = os2 ∧ s1 = s2 := by
  induction h1 generalizing os2 s2 with
  | nil => cases h2; exact ⟨rfl, rfl⟩
  | cons a _ ih =>
    cases h2 with
    | cons b hr =>
      obtain ⟨rfl, rfl⟩ := Does.det a b
      obtain ⟨rfl, rfl⟩ := ih hr
      exact ⟨rfl, rfl⟩

/-! ## The specification -/

/-- Without a `get_mut` that is refused because of `WeakSlice`s only, the specification of the
`Arc` types is that of the `Rc` types. -/
theorem World.ArcCall.mild {w w' : Spec.World α} {op : Spec.Op α} {o : Obs α} (h : w.ArcCall umax op o w') (hm : w.Mild op) :
    (w', o) = w.call umax op := by
  cases h with
  | same => rfl
  | @granted k _ _ f p hk hs =>
    have hw : w.otherHand k (Spec.World.weakConflict f p) = false := by
      rw [Bool.eq_false_iff]; intro h; rw [hm _ _ hk h] at hs; cases hs
    simp only [Spec.World.call, Spec.World.act, hk, hs, hw, Bool.or_self, Bool.false_eq_true, if_false, Spec.World.wrote]
    split <;> rfl
  | @refused k _ _ f p hk hw =>
    have hs : w.otherHand k (Spec.World.sharedConflict f p) = true := by
      apply hm _ _ hk
      rw [← Bool.not_eq_false]; intro h
      rw [weakHere_conflict h] at hw; cases hw
    simp only [Spec.World.call, Spec.World.act, hk, hs, Bool.true_or, if_true]

theorem World.ArcRun.mild {w w' : Spec.World α} {ops : List (Spec.Op α)} {os : List (Obs α)} (h : w.ArcRun umax ops os w')
    (hm : w.Milds umax ops) : (w', os) = w.run umax ops := by
  induction h with
  | nil => rfl
  | cons a _ ih =>
    have e := World.ArcCall.mild a hm.1
    have e1 : _ = (Spec.World.call umax _ _).1 := congrArg Prod.fst e
    have e2 : _ = (Spec.World.call umax _ _).2 := congrArg Prod.snd e
    simp only at e1 e2
    have e3 := ih (by rw [e1]; exact hm.2)
    simp only [Spec.World.run, ← e1, ← e2, ← e3]

theorem Run.append {s s1 s2 : Seq α} {ops ops' : List (Spec.Op α)} {os os' : List (Obs α)} (h1 : s.Run umax ops os s1)
    (h2 : s1.Run umax ops' os' s2) : s.Run umax (ops ++ ops') (os ++ os') s2 := by
  induction h1 with
  | nil => exact h2
  | cons a _ ih => exact .cons a (ih h2)

/-! ## C42 -/

/-- Every program can be run with the `Arc` types from one thread: all calls return, nothing
goes wrong. Call by call the answers are those of the specification. In the end the items are
there, have been handed out, or have been dropped, and memory is allocated, as the
specification says. -/
theorem C42_every_history (umax : Nat) (zst : Bool) (ops : List (Spec.Op α)) :
    ∃ s os w, (Seq.init zst).Run umax ops os s ∧ (Spec.World.empty zst).ArcRun umax ops os w ∧
      (∀ b i, s.c.a.b.slot b i = w.items b i) ∧ ∀ b, s.c.a.b.sk.mem b = w.mem b := by
  obtain ⟨os, s, v, h1, h2, w, φ, R, S⟩ := (Tied.init alone umax zst).run ops
  exact ⟨s, os, v, h1, h2, fun b i => by rw [S.items, R.core.items], fun b => by rw [S.mem, R.core.mem]⟩

/-- Every program in which `RcSlice::get_mut` is never refused just because of `WeakSlice`s
can be run with `RcSlice` as well as with `ArcSlice` from one thread: all calls return and
there is no undefined behaviour. Call by call the answers are the same. In the end the same
items are there, have been handed out, or have been dropped, and the same memory is allocated
(`RcSlice` calls the items of a box by the same names as `ArcSlice`). -/
theorem C42_same_as_rc (umax : Nat) (zst : Bool) (ops : List (Spec.Op α)) (hp : (Spec.World.empty zst).Milds umax ops) :
    ∃ s t os, (Seq.init zst).Run umax ops os s ∧ Rc.run umax ⟨Rc.Heap.empty zst, []⟩ ops = .ok (t, os) ∧
      (∀ b i, s.c.a.b.slot b i = t.h.slot b i) ∧ ∀ b, s.c.a.b.sk.mem b = t.h.sk.mem b := by
  obtain ⟨s, os, w, h1, h2, h3, h4⟩ := C42_every_history umax zst ops
  obtain ⟨t, h5, R'⟩ := Rc.run_sim ops (Rc.Rel.init (α := α) umax zst)
  have e := World.ArcRun.mild h2 hp
  have e1 : w = _ := congrArg Prod.fst e
  have e2 : os = _ := congrArg Prod.snd e
  refine ⟨s, t, os, h1, e2 ▸ h5, fun b i => ?_, fun b => ?_⟩
  · rw [h3, e1, ← R'.core.items]
  · rw [h4, e1, ← R'.core.mem]

/-- The same, starting from a run with `ArcSlice`: whatever a program has done with
`ArcSlice`, it does with `RcSlice`. -/
theorem C42_only_as_rc {ops : List (Spec.Op α)} {os : List (Obs α)} {s : Seq α} (hp : (Spec.World.empty zst).Milds umax ops)
    (h : (Seq.init zst).Run umax ops os s) :
    ∃ t, Rc.run umax ⟨Rc.Heap.empty zst, []⟩ ops = .ok (t, os) ∧
      (∀ b i, s.c.a.b.slot b i = t.h.slot b i) ∧ ∀ b, s.c.a.b.sk.mem b = t.h.sk.mem b := by
  obtain ⟨s', t, os', h1, h2, h3, h4⟩ := C42_same_as_rc umax zst ops hp
  obtain ⟨rfl, rfl⟩ := Run.det h h1
  exact ⟨t, h2, h3, h4⟩

/-- Every run with `ArcSlice` goes through states of the threaded model, so what is proved of
all of these holds of it. -/
theorem C42_is_threaded {ops : List (Spec.Op α)} {os : List (Obs α)} {s : Seq α} (h : (Seq.init zst).Run umax ops os s) :
    Conf.Reach alone zst s.c := by
  obtain ⟨os, s', v, h1, h2, w, φ, R, S⟩ := (Tied.init alone umax zst).run ops
  obtain ⟨rfl, rfl⟩ := Run.det h h1
  exact R.reach

/-- Without `get_mut`, `get_mut` is not refused because of `WeakSlice`s. -/
theorem C42_mild_of_no_getMut (umax : Nat) (w : Spec.World α) (ops : List (Spec.Op α)) (h : ∀ k j x, .getMut k j x ∉ ops) :
    w.Milds umax ops := by
  induction ops generalizing w with
  | nil => trivial
  | cons op ops ih =>
    refine ⟨?_, ih _ fun k j x hm => h k j x (List.mem_cons_of_mem _ hm)⟩
    cases op <;> first | trivial | exact absurd List.mem_cons_self (h _ _ _)

/-- Nor is it without `downgrade`. -/
theorem C42_mild_of_no_weak (umax : Nat) (zst : Bool) (ops : List (Spec.Op α)) (h : ∀ k, .downgrade k ∉ ops) :
    (Spec.World.empty zst).Milds umax ops := by
  have key : ∀ (ops : List (Spec.Op α)) (w : Spec.World α), (∀ k f p, w.get k ≠ some (.weak f p)) → (∀ k, .downgrade k ∉ ops) → w.Milds umax ops := by
    intro ops
    induction ops with
    | nil => intros; trivial
    | cons op ops ih =>
      intro w hw h
      refine ⟨?_, ih _ ?_ fun k hm => h k (List.mem_cons_of_mem _ hm)⟩
      · cases op with
        | getMut k j x =>
          intro f p hk hc
          obtain ⟨o, ho, h2⟩ := List.any_eq_true.1 hc
          cases o with
          | none => cases h2
          | some y =>
            cases y <;> simp only [Option.any_some, Spec.World.weakConflict, Bool.false_eq_true] at h2
            next f' p' =>
            obtain ⟨k', hk'⟩ := List.mem_iff_getElem?.1 ho
            refine absurd ?_ (hw k' f' p')
            simp only [Spec.World.del, List.getElem?_set] at hk'
            split at hk'
            · split at hk' <;> cases hk'
            · simp only [Spec.World.get, hk', Option.join_some]
        | _ => trivial
      · intro k f p hk
        rcases Spec.World.act_new umax w op hk with h1 | ⟨k', ⟨rfl, _⟩ | ⟨_, h1⟩⟩
        · exact hw _ _ _ h1
        · exact h k' List.mem_cons_self
        · exact hw _ _ _ h1
  exact key ops _ (fun k f p h => by cases h) h

/-- A `WeakSlice` that does not count. After any history, let there be an `ArcSlice` with no
other shared handle to it, to what it was cut from, or to what was cut from it. Let there be a
`WeakSlice` to a slice cut from it, and none to the slice itself. Then `get_mut` is granted;
for `RcSlice` it is refused after the same history. -/
theorem C42_weak_below_ignored {ops : List (Spec.Op α)} (hp : (Spec.World.empty zst).Milds umax ops) {k f : Nat} {p : List Side}
    (hk : ((Spec.World.empty zst).run umax ops).1.get k = some (.shared f p))
    (hs : ((Spec.World.empty zst).run umax ops).1.otherHand k (Spec.World.sharedConflict f p) = false)
    (hw : ((Spec.World.empty zst).run umax ops).1.otherHand k (Spec.World.weakConflict f p) = true)
    (hh : ((Spec.World.empty zst).run umax ops).1.otherHand k (Spec.World.weakHere f p) = false) (j : Nat) (x : α) :
    ∃ s t os, (Seq.init zst).Run umax (ops ++ [.getMut k j x]) (os ++ [.done]) s ∧
      Rc.run umax ⟨Rc.Heap.empty zst, []⟩ (ops ++ [.getMut k j x]) = .ok (t, os ++ [.none]) := by
  obtain ⟨os, s, v, h1, h2, T⟩ := (Tied.init alone umax zst).run ops
  have e := World.ArcRun.mild h2 hp
  have e1 : v = _ := congrArg Prod.fst e
  have e2 : os = _ := congrArg Prod.snd e
  subst e1
  obtain ⟨o, s', v', h3, h4, _⟩ := T.call (.getMut k j x)
  obtain ⟨t, h5, _⟩ := Rc.run_sim (ops ++ [.getMut k j x]) (Rc.Rel.init (α := α) umax zst)
  refine ⟨s', t, os, Run.append h1 ?_, ?_⟩
  · have : o = .done := by
      cases h4 with
      | same hm => rw [hm _ _ hk hw] at hs; cases hs
      | granted => rfl
      | refused hk' hw' => rw [hk] at hk'; cases hk'; rw [hh] at hw'; cases hw'
    subst this
    exact .cons h3 (.nil _)
  · rw [h5, Spec.World.run_append]
    simp only [Spec.World.run, Spec.World.call, Spec.World.act, hk, hs, hw, Bool.or_true, if_true, ← e2]

/-- A program: a slice of three items is split, refused and then granted mutable access,
turned into an `ArcSliceMut` and consumed. A unique slice is split into parts from both ends;
an iterator is split, one cut too far. A slice is reached through `WeakSlice`s until it is
gone; one of them and a clone make `get_mut` fail. -/
def demo42 : List (Spec.Op Nat) :=
  [.rcNew [1, 2, 3], .cloneSide .L 0, .cloneSide .R 0, .getMut 0 0 9, .drop 0, .getMut 2 1 7, .read 2, .intoMut 1, .intoIter 1,
   .next .back 1, .next .back 1, .drop 2,
   .mutNew [1, 2, 3, 4, 5], .intoParts 3 4, .nextPart .front 3, .nextPart .back 3, .write 3 0 8, .read 3, .read 4, .read 5,
   .nextPart .back 3, .nextPart .front 3, .nextPart .front 3, .drop 3, .read 6, .intoParts 6 3, .read 6,
   .intoIter 5, .splitOffFrom 5 3, .splitOffFrom 5 1, .splitOffTo 5 0, .read 5, .read 8, .read 9, .next .front 8,
   .rcNew [1, 2], .cloneSide .L 10, .downgrade 11, .drop 11, .upgrade 12, .read 13, .clone 12, .getMut 13 0 9, .drop 10, .drop 12, .drop 14,
   .getMut 13 0 9, .downgrade 13, .drop 13, .upgrade 15, .weakNew, .upgrade 16, .read 15]

instance (w : Spec.World α) (op : Spec.Op α) : Decidable (w.Mild op) :=
  match op with
  | .getMut k _ _ =>
    match h : w.get k with
    | some (.shared f p) =>
      decidable_of_iff (w.otherHand k (Spec.World.weakConflict f p) = true → w.otherHand k (Spec.World.sharedConflict f p) = true)
        ⟨fun hh f' p' h' => by rw [h] at h'; cases h'; exact hh, fun hh => hh f p h⟩
    | none => .isTrue fun f p h' => by rw [h] at h'; cases h'
    | some (.weak ..) => .isTrue fun f p h' => by rw [h] at h'; cases h'
    | some .weakNone => .isTrue fun f p h' => by rw [h] at h'; cases h'
    | some (.uniq ..) => .isTrue fun f p h' => by rw [h] at h'; cases h'
    | some (.iter ..) => .isTrue fun f p h' => by rw [h] at h'; cases h'
    | some (.parts ..) => .isTrue fun f p h' => by rw [h] at h'; cases h'
  | .rcNew .. | .mutNew .. | .weakNew | .clone .. | .cloneSide .. | .splitOff .. | .write .. | .read .. | .intoMut .. | .intoImmut ..
  | .downgrade .. | .upgrade .. | .drop .. | .intoIter .. | .next .. | .splitOffFrom .. | .splitOffTo .. | .intoParts ..
  | .nextPart .. => .isTrue trivial

instance decMilds : (w : Spec.World α) → (ops : List (Spec.Op α)) → Decidable (w.Milds umax ops)
  | _, [] => .isTrue trivial
  | w, op :: ops => have := decMilds (w.call umax op).1 ops; inferInstanceAs (Decidable (_ ∧ _))

theorem demo42_mild : (Spec.World.empty false).Milds 100 demo42 := by decide +kernel

/-- What it sees. -/
def demo42_sees : List (Obs Nat) :=
  [.handle, .handle, .handle, .none, .done, .done, .items [2, 7], .done, .done, .item 1, .none, .done,
   .handle, .done, .handle, .handle, .done, .items [8, 3], .items [1], .items [4, 5],
   .handle, .handle, .none, .done, .items [3], .panicked, .invalid,
   .done, .panicked, .handle, .handle, .items [4], .items [5], .items [], .item 5,
   .handle, .handle, .handle, .done, .handle, .items [1], .handle, .none, .done, .done, .done,
   .done, .handle, .done, .none, .handle, .none, .invalid]

theorem demo42_rc : ∃ t, Rc.run 100 ⟨Rc.Heap.empty false, []⟩ demo42 = .ok (t, demo42_sees) := by
  have h : (Rc.run 100 ⟨Rc.Heap.empty false, []⟩ demo42).toOption.map (·.2) = some demo42_sees := by
    set_option synthInstance.maxSize 1000 in decide +kernel
  revert h
  cases Rc.run 100 ⟨Rc.Heap.empty false, []⟩ demo42 with
  | error => intro h; cases h
  | ok x => intro h; exact ⟨x.1, congrArg Except.ok (Prod.ext rfl (Option.some.inj h))⟩

example : ∃ s, (Seq.init false).Run 100 demo42 demo42_sees s := by
  obtain ⟨s, t, os, h1, h2, _⟩ := C42_same_as_rc 100 false demo42 demo42_mild
  obtain ⟨t', h3⟩ := demo42_rc
  rw [h3] at h2; cases h2
  exact ⟨s, h1⟩

/-- A `WeakSlice` to the left half, whose slice is gone, does not count. -/
example : ∃ s t os, (Seq.init false).Run 100 ([.rcNew [1, 2], .cloneSide .L 0, .downgrade 1, .drop 1] ++ [.getMut 0 0 9]) (os ++ [.done]) s ∧
    Rc.run 100 ⟨Rc.Heap.empty false, []⟩ ([.rcNew [1, 2], .cloneSide .L 0, .downgrade 1, .drop 1] ++ [.getMut 0 0 9]) = .ok (t, os ++ [.none]) :=
  C42_weak_below_ignored (by decide +kernel) (k := 0) (f := 0) (p := []) rfl rfl rfl rfl 0 9

end Verif
