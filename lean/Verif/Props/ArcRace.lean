import Verif.Arc.Proofs.Race9
/-!
# C50: no data races on the items of an array

`ArcSlice`, `ArcSliceMut` and `WeakSlice` are `Send` and `Sync`. Two accesses to the same item, one of
which is not just reading, must be ordered by happens-before, for whatever the threads using the
handles do apart from what they must (`X` in `VConf.Reach`).
-/

namespace Verif.Arc
open Verif.Spec (Side Slot)
open Verif.Rc (UB)
variable {α : Type} {o : Ords} {P : Rules α} {zst : Bool}

/-! ## The runs considered are those of `Arc/Model.lean` -/

theorem VConf.Reach.erase {v : VConf α} (h : VConf.Reach o P zst v) : Conf.Reach P zst v.c := by
  induction h with
  | init => exact .init
  | run h i e ih =>
    simp only [VConf.step] at e
    split at e
    · cases e; exact ih
    · obtain ⟨c', hc, e⟩ := bind_ok e
      cases e
      exact .run ih i hc
  | start h op X hX hp e ih =>
    simp only [VConf.start] at e
    split at e
    · cases e
    · next hc => cases e; exact .start ih op hp hc
  | read h k j X hX e ih =>
    simp only [VConf.read] at e
    split at e
    · cases e
    · split at e
      · split at e
        · cases e; exact ih
        · cases e
      · cases e
  | write h k j x X hX e ih =>
    simp only [VConf.write] at e
    split at e
    · cases e
    · next en hk =>
      split at e
      · split at e
        · next hw =>
          obtain ⟨c', hc, e⟩ := bind_ok (Option.some.inj e)
          cases e
          exact .write ih k en j x hk hw.2 hc
        · cases e
      · cases e

/-- Every run is considered. -/
theorem VConf.lift {c : Conf α} (h : Conf.Reach P zst c) : ∃ v, VConf.Reach o P zst v ∧ v.c = c := by
  induction h with
  | init => exact ⟨_, .init, rfl⟩
  | run h i e ih =>
    obtain ⟨v, hv, rfl⟩ := ih
    cases hc : v.c.calls[i]? with
    | none =>
      rcases Conf.step_cases e with ⟨_, rfl⟩ | ⟨cl, _, _, _, h1, _⟩
      · exact ⟨v, hv, rfl⟩
      · rw [hc] at h1; cases h1
    | some cl =>
      cases hs : v.step o i with
      | error u => simp only [VConf.step, hc, e] at hs; cases hs
      | ok v' =>
        refine ⟨v', .run hv i hs, ?_⟩
        simp only [VConf.step, hc, e] at hs
        cases hs; rfl
  | start h op hp e ih =>
    obtain ⟨v, hv, rfl⟩ := ih
    cases hs : v.start op [] with
    | none => simp only [VConf.start, e] at hs; cases hs
    | some v' =>
      refine ⟨v', .start hv op [] (fun _ h => by cases h) hp hs, ?_⟩
      simp only [VConf.start, e] at hs
      cases hs; rfl
  | write h k en j x hk hw e ih =>
    obtain ⟨v, hv, rfl⟩ := ih
    have e' := e
    simp only [Conf.write] at e
    obtain ⟨r, hr, e⟩ := bind_ok e
    split at e
    · cases e; exact ⟨v, hv, rfl⟩
    · next b off len =>
      split at e
      · next hj =>
        cases hs : v.write k j x [] with
        | none => simp only [VConf.write, hk, hr, hj, hw, and_self, if_true, e'] at hs; cases hs
        | some q =>
          cases q with
          | error u => simp only [VConf.write, hk, hr, hj, hw, and_self, if_true, e'] at hs; cases hs
          | ok v' =>
            refine ⟨v', .write hv k j x [] (fun _ h => by cases h) hs, ?_⟩
            simp only [VConf.write, hk, hr, hj, hw, and_self, if_true, e'] at hs
            cases hs; rfl
      · cases e; exact ⟨v, hv, rfl⟩

/-- Every item put in, moved out or dropped, and every item in memory that is freed, by a step of a call
is noted as touched by it. -/
theorem VConf.touched_all {v v' : VConf α} {i b s : Nat} (h : v.step o i = .ok v')
    (hc : v.c.a.b.slot b s ≠ v'.c.a.b.slot b s ∧ (∀ x y, ¬ (v.c.a.b.slot b s = .live x ∧ v'.c.a.b.slot b s = .live y)) ∨
      v.c.a.b.sk.mem b = true ∧ v'.c.a.b.sk.mem b = false) :
    ∃ e, v'.log[v.log.length + 1]? = some e ∧ e.wr = true ∧ e.at_ b s = true := by
  simp only [VConf.step] at h
  split at h
  · cases h
    rcases hc with ⟨h, _⟩ | ⟨h1, h2⟩
    · exact absurd rfl h
    · rw [h1] at h2; cases h2
  · obtain ⟨c', hc', e⟩ := bind_ok h
    cases e
    refine ⟨_, by simp only [List.getElem?_append_right (Nat.le_add_right v.log.length 1), Nat.add_sub_cancel_left]; rfl, rfl, ?_⟩
    simp only [touched, Bool.or_eq_true, Bool.and_eq_true, Bool.not_eq_true']
    rcases hc with ⟨h1, h2⟩ | h
    · refine .inl ?_
      revert h1 h2
      generalize v.c.a.b.slot b s = p
      generalize hq : c'.a.b.slot b s = q
      intro h1 h2
      cases p <;> cases q <;> first | rfl | exact absurd rfl h1 | exact absurd ⟨rfl, rfl⟩ (h2 _ _)
    · exact .inr h

/-! ## Whoever accesses an item knows of the conflicting accesses before -/

theorem VConf.Reach.mono {Q : Rules α} {v : VConf α} (hPQ : ∀ c op, P c op → Q c op) (h : VConf.Reach o P zst v) : VConf.Reach o Q zst v := by
  induction h with
  | init => exact .init
  | run _ i e ih => exact .run ih i e
  | start _ op X hX hp e ih => exact .start ih op X hX (hPQ _ _ hp) e
  | read _ k j X hX e ih => exact .read ih k j X hX e
  | write _ k j x X hX e ih => exact .write ih k j x X hX e

theorem VI.init {w : Bool} : VI w (VConf.init (α := α) zst) where
  inf := by intro i ev b s h; simp [VConf.init] at h
  ord := by intro i j ev f b s _ h; simp [VConf.init] at h

theorem VConf.step_erase {v v' : VConf α} {i : Nat} (e : v.step o i = .ok v') : v.c.step i = .ok v'.c := by
  simp only [VConf.step] at e
  split at e
  · next h => cases e; simp only [Conf.step, h]
  · obtain ⟨c', hc, e⟩ := bind_ok e
    cases e
    exact hc

theorem VConf.Reach.tameVI (hP : Tame P) {v : VConf α} (h : VConf.Reach o P zst v) : VI true v := by
  induction h with
  | init => exact .init
  | run h i e ih => exact ih.step (h.erase.IA' hP) (.inl rfl) e (VConf.step_erase e)
  | start _ op X hX hp e ih => exact ih.start e
  | read h k j X hX e ih => exact ih.read (h.erase.BI hP) e
  | write h k j x X hX e ih => exact ih.write (h.erase.IA' hP) e

theorem VConf.Reach.noUpVI {Q : Op α → Prop} (hQ : ∀ op, Q op → op.NoUpgrade) {v : VConf α} (h : VConf.Reach o (only Q) zst v) : VI false v := by
  have hS : Strict (only Q) := strict_noUpgrade hQ
  induction h with
  | init => exact .init
  | run h i e ih =>
    have A := h.erase.IA hS
    refine ih.step A (.inr fun i cl d hi hu => ?_) e (VConf.step_erase e)
    have h1 := A.clear.ops i cl hi
    have h2 := hQ _ (h.erase.ops i cl hi)
    simp only [opOK, hu] at h1
    cases ho : cl.op <;> simp_all [Op.isUpgrade, Op.NoUpgrade]
  | start _ op X hX hp e ih => exact ih.start e
  | read h k j X hX e ih => exact ih.read (h.erase.IA hS).bi e
  | write h k j x X hX e ih => exact ih.write (h.erase.IA hS) e

/-- C50, except for `get_mut`: as long as no `WeakSlice` is upgraded while `into_mut` is running, of two
conflicting accesses the earlier one happened before the later one, unless the earlier one is a write
through the result of `get_mut`, or a read and the later one a write through the result of `get_mut`.
(For what is missing see `C50_noUpgrade_partial`, `C50_acquire_partial`, `C50_fails_guard` and `C50_fails_upgrade`.) -/
theorem C50_partial (hP : Tame P) {v : VConf α} (h : VConf.Reach o P zst v) {i j : Nat} (hij : i < j) (hc : v.Conflict i j)
    (hi : ¬ v.ByGetMut i) (hj : ¬ v.ByGetMut j ∨ v.Writes i) : v.Before i j := by
  obtain ⟨e, f, b, s, h1, h2, h3, h4, h5⟩ := hc
  have gi : e.gm = false := by
    cases hg : e.gm with
    | false => rfl
    | true => exact absurd ⟨e, h1, hg⟩ hi
  refine ⟨f, h2, (h.tameVI hP).ord i j e f b s hij h1 h2 h3 h4 (fun _ => gi) h5 ?_⟩
  rcases hj with hj | ⟨e', h6, h7⟩
  · left
    cases hg : f.gm with
    | false => rfl
    | true => exact absurd ⟨f, h2, hg⟩ hj
  · rw [h1] at h6; cases h6
    exact .inr h7

/-- C50 for programs that upgrade no `WeakSlice`: of two conflicting accesses the earlier one happened
before the later one, unless the earlier one is a read and the later one a write through the result
of `get_mut`. -/
theorem C50_noUpgrade_partial (hP : ∀ c op, P c op → op.NoUpgrade) {v : VConf α} (h : VConf.Reach o P zst v) {i j : Nat} (hij : i < j)
    (hc : v.Conflict i j) (hj : ¬ v.ByGetMut j ∨ v.Writes i) : v.Before i j := by
  obtain ⟨e, f, b, s, h1, h2, h3, h4, h5⟩ := hc
  have I := VConf.Reach.noUpVI (fun _ h => h) (h.mono (Q := only Op.NoUpgrade) hP)
  refine ⟨f, h2, I.ord i j e f b s hij h1 h2 h3 h4 (fun h => by cases h) h5 ?_⟩
  rcases hj with hj | ⟨e', h6, h7⟩
  · left
    cases hg : f.gm with
    | false => rfl
    | true => exact absurd ⟨f, h2, hg⟩ hj
  · rw [h1] at h6; cases h6
    exact .inr h7

theorem noMut_step {c c' : Conf α} {i : Nat} {b : Bool} (A : c.Clear b) (hg : ∀ (i : Nat) cl, c.calls[i]? = some cl → cl.op.isGetMut = false)
    (hm : ∀ k en, c.get k = some en → en.mutb = false) (e : c.step i = .ok c') : ∀ k en, c'.get k = some en → en.mutb = false := by
  intro k en hk
  cases CStep.of e with
  | none h => exact hm k en hk
  | task cl t ts a' new hi ht e =>
    rcases after_get hk with h | ⟨_, h⟩
    · exact hm k en h
    · cases h
  | pc cl a' n hi ht e2 =>
    rcases after_get hk with h | ⟨_, h⟩
    · exact hm k en h
    · cases hb : en.mutb with
      | false => rfl
      | true =>
        obtain ⟨d, g, ok, hp, _⟩ := push_mutb (.of e2) h hb
        have h1 := A.ops i cl hi
        simp only [opOK, hp] at h1
        rw [hg i cl hi] at h1; cases h1.1

theorem VConf.Reach.noMut (hP : Tame P) (hQ : ∀ c op, P c op → op.NoGetMut) {v : VConf α} (h : VConf.Reach o P zst v) :
    (∀ k en, v.c.get k = some en → en.mutb = false) ∧ ∀ j, ¬ v.ByGetMut j := by
  induction h with
  | init => exact ⟨by simp [VConf.init, Conf.get, Conf.init], by simp [VConf.ByGetMut, VConf.init]⟩
  | run h i e ih =>
    refine ⟨noMut_step (h.erase.IA' hP).clear (fun i cl hi => ?_) ih.1 (VConf.step_erase e), ?_⟩
    · have h1 := (h.mono (Q := only Op.NoGetMut) hQ).erase.ops i cl hi
      cases ho : cl.op <;> simp_all [Op.isGetMut, Op.NoGetMut]
    · rintro j ⟨f, hf, hg⟩
      simp only [VConf.step] at e
      split at e
      · cases e; exact ih.2 j ⟨f, hf, hg⟩
      · obtain ⟨c', hc, e⟩ := bind_ok e
        cases e
        rcases append_calls (pre := [_]) hf with h | h | ⟨_, rfl⟩
        · exact ih.2 j ⟨f, h, hg⟩
        · simp only [List.mem_singleton] at h
          subst h; cases hg
        · cases hg
  | start h op X hX hp e ih =>
    refine ⟨fun k en hk => ?_, ?_⟩
    · simp only [VConf.start] at e
      split at e
      · cases e
      · next hc =>
        cases e
        rcases start_get (.of hc) hk with h | ⟨_, _, rfl⟩ | ⟨_, _, _, _, rfl⟩
        · exact ih.1 k en h
        · rfl
        · rfl
    · rintro j ⟨f, hf, hg⟩
      rw [(VSta.of (w := true) e).log] at hf
      exact ih.2 j ⟨f, hf, hg⟩
  | read h k j X hX e ih =>
    simp only [VConf.read] at e
    split at e
    · cases e
    · split at e
      · split at e
        · cases e
          refine ⟨ih.1, ?_⟩
          rintro j ⟨f, hf, hg⟩
          rcases append_call hf with h | ⟨_, rfl⟩
          · exact ih.2 j ⟨f, h, hg⟩
          · cases hg
        · cases e
      · cases e
  | write h k j x X hX e ih =>
    simp only [VConf.write] at e
    split at e
    · cases e
    · next en hk =>
      split at e
      · split at e
        · next hw =>
          obtain ⟨c', hc, e⟩ := bind_ok (Option.some.inj e)
          cases e
          refine ⟨fun k2 en2 hk2 => ih.1 k2 en2 ?_, ?_⟩
          · simp only [Conf.get, (write_same hc).2.1] at hk2
            exact hk2
          · rintro j ⟨f, hf, hg⟩
            rcases append_call hf with h | ⟨_, rfl⟩
            · exact ih.2 j ⟨f, h, hg⟩
            · simp only at hg
              rw [ih.1 k en hk] at hg; cases hg
        · cases e
      · cases e

/-- C50 for programs that do not call `get_mut`: there are no data races. -/
theorem C50_noGetMut_partial (hP : Tame P) (hQ : ∀ c op, P c op → op.NoGetMut) {v : VConf α} (h : VConf.Reach o P zst v) (i j : Nat) :
    ¬ v.Race i j := by
  have hg := (h.noMut hP hQ).2
  rintro ⟨hc, h1, h2, hne⟩
  rcases Nat.lt_or_gt_of_ne hne with hlt | hgt
  · exact h1 (C50_partial hP h hlt hc (hg i) (.inl (hg j)))
  · obtain ⟨e, f, b, s, h3, h4, h5, h6, h7⟩ := hc
    exact h2 (C50_partial hP h hgt ⟨f, e, b, s, h4, h3, h6, h5, h7.symm⟩ (hg j) (.inl (hg i)))

/-- Non-vacuity: a slice is cloned, somebody reads the clone, drops it, and somebody else drops the
slice. The read and the drop of the item conflict. -/
def readDrop : List (VAct Nat) :=
  [.op (.new [1, 2]), .run 0 6, .op (.clone 0), .run 1 2, .rd 1 0, .op (.drop 1), .run 2 2, .op (.drop 0), .run 3 8]

example : ∃ v : VConf Nat, VConf.Reach ⟨false, false, false, true⟩ (only Op.NoGetMut) false v ∧ v.Conflict 16 24 ∧ ¬ v.ByGetMut 16 ∧ ¬ v.ByGetMut 24 ∧
    ¬ v.Writes 16 := by
  have h : ((VConf.exec ⟨false, false, false, true⟩ (VConf.init false) readDrop).map fun v =>
      (v.log[16]?.map fun e => (e.wr, e.gm, e.at_ 0 0), v.log[24]?.map fun e => (e.wr, e.gm, e.at_ 0 0))) =
      some (some (false, false, true), some (true, false, true)) := by set_option synthInstance.maxSize 1000 in decide +kernel
  cases hv : VConf.exec ⟨false, false, false, true⟩ (VConf.init false) readDrop with
  | none => rw [hv] at h; cases h
  | some v =>
    rw [hv] at h
    simp only [Option.map_some, Option.some.injEq, Prod.mk.injEq, Option.map_eq_some_iff] at h
    obtain ⟨⟨e, he, h1, h2, h3⟩, ⟨f, hf, h4, h5, h6⟩⟩ := h
    refine ⟨v, VConf.exec_reach .init (by simp [readDrop, Op.NoGetMut]) hv, ⟨e, f, 0, 0, he, hf, h3, h6, .inr h4⟩, ?_, ?_, ?_⟩
    · rintro ⟨g, hg, h⟩
      rw [he] at hg; cases hg
      rw [h2] at h; cases h
    · rintro ⟨g, hg, h⟩
      rw [hf] at hg; cases hg
      rw [h5] at h; cases h
    · rintro ⟨g, hg, h⟩
      rw [he] at hg; cases hg
      rw [h1] at h; cases h

/-- Non-vacuity: an item is written through the result of `get_mut` and read through a clone. -/
def writeRead : List (VAct Nat) :=
  [.op (.new [1, 2]), .run 0 6, .op (.getMut 0), .run 1 7, .wr 1 0 9, .op (.endMut 1), .op (.clone 1), .run 2 2, .rd 2 0]

example : ∃ v : VConf Nat, VConf.Reach ⟨false, false, false, true⟩ (only Op.NoUpgrade) false v ∧ v.Conflict 26 31 ∧ v.ByGetMut 26 ∧ v.Writes 26 := by
  have h : ((VConf.exec ⟨false, false, false, true⟩ (VConf.init false) writeRead).map fun v =>
      (v.log[26]?.map fun e => (e.wr, e.gm, e.at_ 0 0), v.log[31]?.map fun e => e.at_ 0 0)) =
      some (some (true, true, true), some true) := by set_option synthInstance.maxSize 1000 in decide +kernel
  cases hv : VConf.exec ⟨false, false, false, true⟩ (VConf.init false) writeRead with
  | none => rw [hv] at h; cases h
  | some v =>
    rw [hv] at h
    simp only [Option.map_some, Option.some.injEq, Prod.mk.injEq, Option.map_eq_some_iff] at h
    obtain ⟨⟨e, he, h1, h2, h3⟩, ⟨f, hf, h4⟩⟩ := h
    exact ⟨v, VConf.exec_reach .init (by simp [writeRead, Op.NoUpgrade]) hv, ⟨e, f, 0, 0, he, hf, h3, h4, .inl h1⟩, ⟨e, he, h2⟩, ⟨e, he, h1⟩⟩

/-- Rules met by programs without `upgrade` (and by others) are tame. -/
example : Tame (only (Op.NoUpgrade (α := α))) := tame_noUpgrade fun _ h => h

/-! ## `get_mut` races -/

/-- Two threads hold the left half of an array and *its* left half; the first reads nothing and drops its
half, the second reads an item and drops the quarter. Then somebody makes a left half anew, drops the
array and calls `get_mut` on the half. -/
def raceGuard : List (VAct Nat) :=
  [.op (.new [1, 2, 3, 4]), .run 0 6, .op (.cloneSide .L 0), .run 1 13, .op (.cloneSide .L 1), .run 2 13,
   .op (.drop 1), .run 3 2, .rd 2 0, .op (.drop 2), .run 4 3, .op (.cloneSide .L 0), .run 5 12,
   .op (.drop 0), .run 6 2, .op (.getMut 3), .run 7 7, .wr 4 0 9]

/-- A slice is cloned, the clone is read and dropped, and `get_mut` is called on the slice. -/
def raceCount : List (VAct Nat) :=
  [.op (.new [1, 2]), .run 0 6, .op (.clone 0), .run 1 2, .rd 1 0, .op (.drop 1), .run 2 2, .op (.getMut 0), .run 3 7, .wr 2 0 9]

theorem race_of {as : List (VAct Nat)} {o : Ords} {i j : Nat} (hi : i < j) (hn : ∀ p, VAct.op p ∈ as → p.NoWeak)
    (h : ((VConf.exec o (VConf.init false) as).map fun v =>
      (v.log[i]?.map fun e => (e.wr, e.at_ 0 0), v.log[j]?.map fun e => (e.wr, e.gm, e.at_ 0 0, e.view.contains i),
        v.log[i]?.map fun e => e.view.contains j)) =
      some (some (false, true), some (true, true, true, false), some false)) :
    ∃ v : VConf Nat, VConf.Reach o (only Op.NoWeak) false v ∧ v.Race i j ∧ v.ByGetMut j := by
  cases hv : VConf.exec o (VConf.init false) as with
  | none => rw [hv] at h; cases h
  | some v =>
    rw [hv] at h
    simp only [Option.map_some, Option.some.injEq, Prod.mk.injEq, Option.map_eq_some_iff] at h
    obtain ⟨⟨e, he, h1, h2⟩, ⟨f, hf, h3, h4, h5, h6⟩, e', he', h7⟩ := h
    rw [he] at he'; cases he'
    refine ⟨v, VConf.exec_reach .init hn hv, ⟨⟨e, f, 0, 0, he, hf, h2, h5, .inr h3⟩, ?_, ?_, Nat.ne_of_lt hi⟩, f, hf, h4⟩
    · rintro ⟨f', hf', hx⟩
      rw [hf] at hf'; cases hf'
      simp [hx] at h6
    · rintro ⟨e', he', hx⟩
      rw [he] at he'; cases he'
      simp [hx] at h7

/-- C50 is false of `get_mut` as long as an unsuccessful `Weak::upgrade` does not acquire the count it
reads: `guard` replaces the `DataGuard` of a data whose last guard was dropped by another thread without
ever learning what this thread did, and the new guard is all `get_mut` looks at. -/
theorem C50_fails_guard : ∃ v : VConf Nat, VConf.Reach ⟨true, true, false, true⟩ (only Op.NoWeak) false v ∧ v.Race 68 117 ∧ v.ByGetMut 117 :=
  race_of (as := raceGuard) (by decide) (by simp [raceGuard, Op.NoWeak]) (by set_option synthInstance.maxSize 1000 in decide +kernel)

/-- A schedule follows the rules. -/
def VConf.obeys (o : Ords) (ok : Conf α → Op α → Bool) (v : VConf α) : List (VAct α) → Bool
  | [] => true
  | .op p :: as => ok v.c p && match v.start p [] with
    | some v' => obeys o ok v' as
    | none => true
  | .run i n :: as => match steps o v i n with
    | .ok v' => obeys o ok v' as
    | .error _ => true
  | .rd k j :: as => match v.read k j [] with
    | some v' => obeys o ok v' as
    | none => true
  | .wr k j x :: as => match v.write k j x [] with
    | some (.ok v') => obeys o ok v' as
    | _ => true

theorem VConf.obeys_reach {ok : Conf α → Op α → Bool} : ∀ {as : List (VAct α)} {v v' : VConf α},
    Reach o (fun c p => ok c p = true) zst v → v.obeys o ok as = true → exec o v as = some v' → Reach o (fun c p => ok c p = true) zst v' := by
  intro as
  induction as with
  | nil => intro v v' h _ e; cases e; exact h
  | cons a as ih =>
    intro v v' h hp e
    cases a with
    | op p =>
      simp only [exec] at e
      simp only [obeys, Bool.and_eq_true] at hp
      obtain ⟨h1, h2⟩ := hp
      cases hs : v.start p [] with
      | none => rw [hs] at e; cases e
      | some v1 => rw [hs] at e h2; exact ih (.start h p [] (fun _ h => by cases h) h1 hs) h2 e
    | run i n =>
      simp only [exec] at e
      simp only [obeys] at hp
      cases hs : steps o v i n with
      | error u => rw [hs] at e; cases e
      | ok v1 => rw [hs] at e hp; exact ih (steps_reach h hs) hp e
    | rd k j =>
      simp only [exec] at e
      simp only [obeys] at hp
      cases hs : v.read k j [] with
      | none => rw [hs] at e; cases e
      | some v1 => rw [hs] at e hp; exact ih (.read h k j [] (fun _ h => by cases h) hs) hp e
    | wr k j x =>
      simp only [exec] at e
      simp only [obeys] at hp
      cases hs : v.write k j x [] with
      | none => rw [hs] at e; cases e
      | some r =>
        cases r with
        | error u => rw [hs] at e; cases e
        | ok v1 => rw [hs] at e hp; exact ih (.write h k j x [] (fun _ h => by cases h) hs) hp e

/-- The left half of an array is made, downgraded and dropped, made anew and, once the array is dropped, written to by
`get_mut`. Later somebody upgrades the `WeakSlice` and reads. -/
def raceUpgrade : List (VAct Nat) :=
  [.op (.new [1, 2]), .run 0 6, .op (.cloneSide .L 0), .run 1 13, .op (.downgrade 1), .run 2 4, .op (.drop 1), .run 3 2,
   .op (.cloneSide .L 0), .run 4 13, .op (.drop 0), .run 5 4, .op (.getMut 3), .run 6 7, .wr 4 0 9, .op (.endMut 4),
   .op (.upgrade 2), .run 7 7, .rd 5 0]

/-- C50 is false of `get_mut` in programs that upgrade `WeakSlice`s, whatever `std` does, and even if
they are not upgraded while `get_mut` is running or its result is in use: `upgrade` does
not learn of the writes. -/
theorem C50_fails_upgrade : ∃ v : VConf Nat, VConf.Reach ⟨true, true, true, true⟩ (fun c op => c.strict op = true) false v ∧ v.Race 98 113 ∧
    v.ByGetMut 98 := by
  have h : ((VConf.exec ⟨true, true, true, true⟩ (VConf.init false) raceUpgrade).map fun v =>
      (v.log[98]?.map fun e => (e.wr, e.gm, e.at_ 0 0, e.view.contains 113), v.log[113]?.map fun e => (e.at_ 0 0, e.view.contains 98))) =
      some (some (true, true, true, false), some (true, false)) := by set_option synthInstance.maxSize 1000 in decide +kernel
  have ho : (VConf.init false).obeys ⟨true, true, true, true⟩ Conf.strict raceUpgrade = true := by decide +kernel
  cases hv : VConf.exec ⟨true, true, true, true⟩ (VConf.init false) raceUpgrade with
  | none => rw [hv] at h; cases h
  | some v =>
    rw [hv] at h
    simp only [Option.map_some, Option.some.injEq, Prod.mk.injEq, Option.map_eq_some_iff] at h
    obtain ⟨⟨e, he, h1, h2, h3, h4⟩, ⟨f, hf, h5, h6⟩⟩ := h
    refine ⟨v, VConf.obeys_reach .init ho hv, ⟨⟨e, f, 0, 0, he, hf, h3, h5, .inl h1⟩, ?_, ?_, by decide⟩, e, he, h2⟩
    · rintro ⟨g, hg, hx⟩
      rw [hf] at hg; cases hg
      simp [hx] at h6
    · rintro ⟨g, hg, hx⟩
      rw [he] at hg; cases hg
      simp [hx] at h4

/-- With the `Relaxed` `Arc::strong_count` of today's `std`, `get_mut` races with any read through a
handle that has been dropped. -/
theorem C50_fails_count : ∃ v : VConf Nat, VConf.Reach ⟨false, true, true, true⟩ (only Op.NoWeak) false v ∧ v.Race 16 35 ∧ v.ByGetMut 35 :=
  race_of (as := raceCount) (by decide) (by simp [raceCount, Op.NoWeak]) (by set_option synthInstance.maxSize 1000 in decide +kernel)

end Verif.Arc
