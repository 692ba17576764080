import Verif.Arc.Proofs.Pub5
import Verif.Arc.Proofs.Pub6
import Verif.Props.ArcRace
/-!
# C51: no data races on what the library itself allocates

`ArcSlice` shares an `ArcSliceData` for every subslice anyone has asked for, `DataGuard`s, and boxes with
`Weak<DataGuard>`s, among all threads that have handles to the same array. They are made by whoever needs them
first, published by compare-and-swap (arc_slice.rs:141, 302), and destroyed by whoever drops the last `Arc`. Nobody
must access such an object unless it has been initialized before, in the sense of happens-before, and its
contents must not be destroyed before all accesses to them.
-/

namespace Verif.Arc
open Verif.Spec (Side Slot)
open Verif.Rc
variable {α : Type} {o : Ords} {P : Rules α} {zst : Bool}

/-! ## The accesses considered are those that are made -/

/-- All atomic accesses of a step are taken into account. -/
theorem VConf.acc_noted {v v' : VConf α} {i : Nat} {cl : Call α} (e : v.step o i = .ok v') (hi : v.c.calls[i]? = some cl) :
    ∀ r ∈ callAcc o v.c.a cl, Noted v.c.a v'.c.a cl r.loc := by
  have h := VConf.step_erase e
  generalize v'.c = c' at h
  cases CStep.of h with
  | none h2 => rw [hi] at h2; cases h2
  | task cl2 t ts a' new hi2 ht e2 =>
    rw [hi] at hi2; cases hi2
    have hh : callHead v.c.a cl = ataskHead v.c.a t := by simp only [callHead, ht]
    simp only [callAcc, ht]
    suffices hn : ∀ r ∈ ataskAcc v.c.a t, Noted v.c.a a' cl r.loc from fun r hr => hn r (List.mem_filter.1 hr).1
    cases t with
    | base t =>
      obtain ⟨⟨h', ts'⟩, e1, e2⟩ := bind_ok e2
      cases pure_ok e2
      cases t with
      | dropS x => exact dropAcc_noted e1 hh
      | _ => intro r hr; cases hr
    | slice d g =>
      obtain ⟨⟨h', ts'⟩, e1, e2⟩ := bind_ok e2
      cases pure_ok e2
      exact dropAcc_noted e1 hh
    | guard g =>
      simp only [ataskAcc, dropGAcc]
      split <;> simp [Noted, Acc.loc, Loc.inside, Loc.obj, hh, ataskHead]
  | pc cl2 a' n hi2 ht e2 =>
    rw [hi] at hi2; cases hi2
    simp only [callAcc, ht]
    exact fun r hr => pcAcc_noted ht (.of e2) r (List.mem_filter.1 hr).1

/-- Whatever a step changes is in an object that the step makes, destroys, or accesses the contents of; for counters it is
enough that it accesses the object at all. -/
theorem VConf.changes_noted (hP : Tame P) {v v' : VConf α} (h : VConf.Reach o P zst v) {i : Nat} {cl : Call α} (e : v.step o i = .ok v')
    (hi : v.c.calls[i]? = some cl) : Framed v.c.a v'.c.a (callHead v.c.a cl) (callBody cl) :=
  framed_step (h.erase.BI hP) (VConf.step_erase e) hi

/-! ## C51 -/

theorem PubI.init : PubI (VConf.init (α := α) zst) where
  made := by simp [VConf.init]
  first := by simp [VConf.init]
  use := by simp [VConf.init]
  call := by simp [VConf.init, Conf.init]
  ent := by simp [VConf.init, Conf.init, Conf.get]
  kid := by intro x u s c h; cases h
  box := by intro x u V h; cases h
  lnk := by
    intro X Y V _ h
    obtain ⟨i, ev, h1, _⟩ := h
    simp [VConf.init] at h1
  bodyN := by simp [VConf.init]
  bodyG := by simp [VConf.init]
  dead := by simp [VConf.init]
  gone := by simp [VConf.init]
  order := by simp [VConf.init]

theorem VConf.Reach.pub (hP : Tame P) {v : VConf α} (h : VConf.Reach o P zst v) : PubI v := by
  induction h with
  | init => exact .init
  | run h i e ih =>
    have A := h.erase.IA' hP
    obtain ⟨c2, e2, B', ev⟩ := A.bi.step (A.ph.fgSafe A.bi i)
    rw [VConf.step_erase e] at e2; cases e2
    rcases VStp.of A.bi e with ⟨_, rfl⟩ | ⟨cl, cl', push, U, R, N, V, S⟩
    · exact ih
    · exact ih.step S A.bi ev.evo
  | start _ op X hX hp e ih => exact ih.start e
  | read h k j X hX e ih => exact ih.read (h.erase.BI hP) e
  | write h k j x X hX e ih => exact ih.write (h.erase.BI hP) e

/-- C51: of two accesses to the same object, one of which makes or destroys it, the earlier one happened before
the later one. This holds for all orderings `std` may have chosen for counts and for `upgrade`. -/
theorem C51_ordered (hP : Tame P) {v : VConf α} (h : VConf.Reach o P zst v) {i j : Nat} (hij : i < j) (hc : v.Clash i j) : v.Before i j :=
  (h.pub hP).ordered hij hc

/-- So there are no data races. -/
theorem C51_no_race (hP : Tame P) {v : VConf α} (h : VConf.Reach o P zst v) (i j : Nat) : ¬ v.ObjRace i j := by
  rintro ⟨hc, h1, h2, hne⟩
  rcases Nat.lt_or_gt_of_ne hne with hlt | hgt
  · exact h1 (C51_ordered hP h hlt hc)
  · obtain ⟨e, f, X, h3, h4, h5⟩ := hc
    refine h2 (C51_ordered hP h hgt ⟨f, e, X, h4, h3, ?_⟩)
    revert h5
    cases e.obj X <;> cases f.obj X <;> simp [Touch.clash]

/-- Whatever is accessed has been made, once, and that happened before. -/
theorem C51_published (hP : Tame P) {v : VConf α} (h : VConf.Reach o P zst v) {j : Nat} {X : Obj} {t : Touch} (hj : v.Touches j X t)
    (h0 : t ≠ .none) (h1 : t ≠ .make) : ∃ i, i < j ∧ v.Touches i X .make ∧ v.Before i j ∧ ∀ i', v.Touches i' X .make → i' = i := by
  obtain ⟨f, hf, rfl⟩ := hj
  have I := h.pub hP
  rcases I.use j f X hf h0 with h2 | ⟨i, e, h2, h3, h4, _⟩
  · exact absurd h2 h1
  · refine ⟨i, ?_, ⟨e, h2, h3⟩, ⟨f, hf, h4⟩, ?_⟩
    · rcases Nat.lt_trichotomy i j with h | h | h
      · exact h
      · subst h; rw [h2] at hf; cases hf; exact absurd h3 h1
      · exact absurd (I.first j i f e X h hf h2 h3) h0
    · rintro i' ⟨e', h5, h6⟩
      rcases Nat.lt_trichotomy i' i with h | h | h
      · rw [I.first i' i e' e X h h5 h2 h3] at h6; cases h6
      · exact h
      · rw [I.first i i' e e' X h h2 h5 h6] at h3; cases h3

/-- Once an object has been destroyed nobody accesses its contents, destroys it again, or makes it again. -/
theorem C51_destroyed (hP : Tame P) {v : VConf α} (h : VConf.Reach o P zst v) {i j : Nat} {X : Obj} {t : Touch} (hi : v.Touches i X .free)
    (hij : i < j) (hj : v.Touches j X t) : t = .none ∨ t = .head := by
  obtain ⟨e, he, h1⟩ := hi
  obtain ⟨f, hf, rfl⟩ := hj
  have I := h.pub hP
  have h2 := I.gone i j e f X hij he hf h1
  have h3 : f.obj X ≠ .make := fun h => by rw [I.first i j e f X hij he hf h] at h1; cases h1
  cases hx : f.obj X <;> simp_all


/-- Non-vacuity: one thread clones the left half of a slice, which makes it (access 18); another one does the same, finds it
(42), and looks for a guard in it (44). All slices are dropped, which destroys it (97). The accesses clash, and the other
thread knows of 18 only because of `left_child`. -/
def makeUse : List (VAct Nat) :=
  [.op (.new [1, 2, 3, 4]), .run 0 6, .op (.cloneSide .L 0), .run 1 13, .op (.cloneSide .L 0), .run 2 12, .op (.drop 1), .run 3 8,
   .op (.drop 2), .run 4 8, .op (.drop 0), .run 5 12]

example : ∃ v : VConf Nat, VConf.Reach ⟨false, false, false, true⟩ (only Op.NoUpgrade) false v ∧ v.Clash 18 42 ∧ v.Clash 44 97 ∧
    v.Touches 42 (.node 2) .head ∧ v.Touches 97 (.node 2) .free := by
  have h : ((VConf.exec ⟨false, false, false, true⟩ (VConf.init false) makeUse).map fun v =>
      ((v.log[18]?.map fun e => e.obj (.node 2), v.log[42]?.map fun e => e.obj (.node 2)),
        (v.log[44]?.map fun e => e.obj (.node 2), v.log[97]?.map fun e => e.obj (.node 2)))) =
      some ((some .make, some .head), (some .body, some .free)) := by set_option synthInstance.maxSize 1000 in decide +kernel
  cases hv : VConf.exec ⟨false, false, false, true⟩ (VConf.init false) makeUse with
  | none => rw [hv] at h; cases h
  | some v =>
    rw [hv] at h
    simp only [Option.map_some, Option.some.injEq, Prod.mk.injEq, Option.map_eq_some_iff] at h
    obtain ⟨⟨⟨e1, a1, b1⟩, ⟨e2, a2, b2⟩⟩, ⟨e3, a3, b3⟩, ⟨e4, a4, b4⟩⟩ := h
    exact ⟨v, VConf.exec_reach .init (by simp [makeUse, Op.NoUpgrade]) hv, ⟨e1, e2, .node 2, a1, a2, by simp [b1, b2, Touch.clash]⟩,
      ⟨e3, e4, .node 2, a3, a4, by simp [b3, b4, Touch.clash]⟩, ⟨e2, a2, b2⟩, ⟨e4, a4, b4⟩⟩

/-- These programs follow the rules. -/
example : Tame (only (Op.NoUpgrade (α := α))) := (strict_noUpgrade fun _ h => h).tame

end Verif.Arc
