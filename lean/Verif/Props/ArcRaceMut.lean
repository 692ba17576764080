import Verif.Props.ArcRace
import Verif.Arc.Proofs.Mut3
/-!
# C50: `get_mut`, if all loads of counts acquire

`Props/ArcRace.lean` shows that `get_mut` races with reads before if `Arc::strong_count` or an
unsuccessful `Weak::upgrade` only load `Relaxed`. Here they acquire what they load: then
there is no such race.
-/

namespace Verif.Arc
open Verif.Spec (Side Slot)
variable {α : Type} {o : Ords} {P : Rules α} {zst : Bool}

theorem VConf.start_erase {v v' : VConf α} {op : Op α} {X : View} (e : v.start op X = some v') : v.c.start op = some v'.c := by
  simp only [VConf.start] at e
  split at e
  · cases e
  · next hc => cases e; exact hc

theorem VConf.Reach.RI (hS : Strict P) (hc : o.cnt = true) (hf : o.fail = true) {v : VConf α} (h : VConf.Reach o P zst v) : RI v := by
  induction h with
  | init => exact .init
  | run h i e ih => exact ih.step (h.tameVI hS.tame) (h.erase.IA hS) hc hf e (VConf.step_erase e)
  | start _ op X hX hp e ih => exact ih.start e (VConf.start_erase e)
  | read h k j X hX e ih => exact ih.read (h.erase.IA hS) e
  | write h k j x X hX e ih => exact ih.write (h.tameVI hS.tame) e

/-- C50 with acquiring loads: as long as `upgrade` overlaps neither `into_mut` on a larger slice nor `get_mut` and the use of
its result, of two conflicting accesses the earlier one happened before the later one, unless the earlier
one is itself a write through the result of `get_mut`. (Those are ordered if there is no `upgrade` at all, see
`C50_acquire_noUpgrade_partial`; otherwise not, see `C50_fails_upgrade`.) -/
theorem C50_acquire_partial (hS : Strict P) (hc : o.cnt = true) (hf : o.fail = true) {v : VConf α} (h : VConf.Reach o P zst v) {i j : Nat}
    (hij : i < j) (hx : v.Conflict i j) (hi : ¬ v.ByGetMut i) : v.Before i j := by
  obtain ⟨e, f, b, s, h1, h2, h3, h4, h5⟩ := id hx
  by_cases hj : v.ByGetMut j
  · by_cases hw : v.Writes i
    · exact C50_partial hS.tame h hij hx hi (.inr hw)
    · have hw : e.wr = false := by
        cases hg : e.wr with
        | false => rfl
        | true => exact absurd ⟨e, h1, hg⟩ hw
      obtain ⟨f', h6, h7⟩ := hj
      rw [h2] at h6; cases h6
      exact ⟨f, h2, (h.RI hS hc hf).ord i j e f b s hij h1 h2 h3 h4 hw h7⟩
  · exact C50_partial hS.tame h hij hx hi (.inl hj)

/-- C50 with acquiring loads, for programs that upgrade no `WeakSlice`: there are no data races. -/
theorem C50_acquire_noUpgrade_partial (hP : ∀ c op, P c op → op.NoUpgrade) (hc : o.cnt = true) (hf : o.fail = true) {v : VConf α}
    (h : VConf.Reach o P zst v) (i j : Nat) : ¬ v.Race i j := by
  have h' := h.mono (Q := only Op.NoUpgrade) hP
  have hS : Strict (only (Op.NoUpgrade (α := α))) := strict_noUpgrade fun _ h => h
  have key : ∀ {i j}, i < j → v.Conflict i j → v.Before i j := by
    intro i j hij hx
    by_cases hw : v.Writes i
    · exact C50_noUpgrade_partial hP h hij hx (.inr hw)
    · by_cases hj : v.ByGetMut j
      · refine C50_acquire_partial hS hc hf h' hij hx ?_
        rintro ⟨e, he, hg⟩
        have h1 := (h'.RI hS hc hf).gm e (List.mem_of_getElem? he)
        cases hwr : e.wr with
        | false => rw [h1 hwr] at hg; cases hg
        | true => exact hw ⟨e, he, hwr⟩
      · exact C50_noUpgrade_partial hP h hij hx (.inl hj)
  rintro ⟨hx, h1, h2, hne⟩
  rcases Nat.lt_or_gt_of_ne hne with hlt | hgt
  · exact h1 (key hlt hx)
  · obtain ⟨e, f, b, s, h3, h4, h5, h6, h7⟩ := hx
    exact h2 (key hgt ⟨f, e, b, s, h4, h3, h6, h5, h7.symm⟩)

theorem conflict_of {as : List (VAct Nat)} {o : Ords} {i j : Nat} (hn : ∀ p, VAct.op p ∈ as → p.NoUpgrade)
    (h : ((VConf.exec o (VConf.init false) as).map fun v =>
      (v.log[i]?.map fun e => (e.wr, e.gm, e.at_ 0 0), v.log[j]?.map fun e => (e.wr, e.gm, e.at_ 0 0))) =
      some (some (false, false, true), some (true, true, true))) :
    ∃ v : VConf Nat, VConf.Reach o (only Op.NoUpgrade) false v ∧ v.Conflict i j ∧ ¬ v.ByGetMut i ∧ ¬ v.Writes i ∧ v.ByGetMut j := by
  cases hv : VConf.exec o (VConf.init false) as with
  | none => rw [hv] at h; cases h
  | some v =>
    rw [hv] at h
    simp only [Option.map_some, Option.some.injEq, Prod.mk.injEq, Option.map_eq_some_iff] at h
    obtain ⟨⟨e, he, h1, h2, h3⟩, ⟨f, hf, h4, h5, h6⟩⟩ := h
    refine ⟨v, VConf.exec_reach .init hn hv, ⟨e, f, 0, 0, he, hf, h3, h6, .inr h4⟩, ?_, ?_, f, hf, h5⟩
    · rintro ⟨g, hg, h⟩
      rw [he] at hg; cases hg
      rw [h2] at h; cases h
    · rintro ⟨g, hg, h⟩
      rw [he] at hg; cases hg
      rw [h1] at h; cases h

/-- Non-vacuity: the runs that race with `Relaxed` loads are runs with acquiring loads, too, with
the same conflict. -/
example : ∃ v : VConf Nat, VConf.Reach ⟨true, false, true, true⟩ (only Op.NoUpgrade) false v ∧ v.Conflict 68 117 ∧ ¬ v.ByGetMut 68 ∧
    ¬ v.Writes 68 ∧ v.ByGetMut 117 :=
  conflict_of (as := raceGuard) (by simp [raceGuard, Op.NoUpgrade]) (by set_option synthInstance.maxSize 1000 in decide +kernel)

example : ∃ v : VConf Nat, VConf.Reach ⟨true, false, true, true⟩ (only Op.NoUpgrade) false v ∧ v.Conflict 16 35 ∧ ¬ v.ByGetMut 16 ∧
    ¬ v.Writes 16 ∧ v.ByGetMut 35 :=
  conflict_of (as := raceCount) (by simp [raceCount, Op.NoUpgrade]) (by set_option synthInstance.maxSize 1000 in decide +kernel)

/-- Rules that let programs upgrade and are strict. -/
example : Strict (fun (c : Conf α) op => c.strict op = true) := fun _ _ _ _ h => h

end Verif.Arc
