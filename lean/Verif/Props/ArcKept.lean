import Verif.Arc.Proofs.Kept
import Verif.Props.ArcBounds
import Verif.Props.ArcWeak
/-!
# C78: what handles of the Arc version keep in memory

Besides what is leaked (C77) and the subslices of slices that are still in use (C69): each `ArcSlice` keeps a logarithmic number of guards, `WeakSlice`s keep none.
Of slice data that has been dropped, there is at most one block of memory for each handle. `2 ^ m` is a bound on the number of items of the arrays in question.
-/

namespace Verif
open Verif.Arc
open Rc (UB Lab)
variable {α : Type} {P : Rules α} {zst : Bool} {c : Conf α} {w : WConf α} {m : Nat}

/-- C78: At any time, at most so many guards have not been dropped. -/
theorem C78_guards (hP : PTame P) (h : Conf.PReach P zst c) (hm : ∀ b, b < c.a.b.sk.nbuf → c.a.b.sk.blen b ≤ 2 ^ m) :
    c.liveGuards.length ≤ (c.strongs + c.active + c.pending) * (m + 2) :=
  Nat.le_trans (h.guards_le hP fun _ hx hk => h.depth hP hm hx hk) (Nat.mul_le_mul_right _ Conf.held_le)

theorem Arc.quiet_work (hq : c.Quiet) : c.active = 0 ∧ c.pending = 0 := by
  have key : ∀ cl ∈ c.calls, cl.pc.isDone = true ∧ cl.tasks.length + cl.pc.todo = 0 := fun cl hcl => by
    obtain ⟨r, h1, h2⟩ := fin_pc (hq cl hcl)
    simp [h1, h2, Pc.isDone, Pc.todo]
  constructor
  · rw [Conf.active, List.countP_eq_zero]
    intro cl hcl; simp [(key cl hcl).1]
  · rw [Conf.pending, List.map_congr_left (g := fun _ => 0) fun cl hcl => (key cl hcl).2, zeros]

theorem Arc.bounded (f : Nat → Nat) : ∀ n : Nat, ∃ m, ∀ x, x < n → f x ≤ m
  | 0 => ⟨0, fun x hx => by omega⟩
  | n + 1 => by
    obtain ⟨m, hm⟩ := bounded f n
    refine ⟨max m (f n), fun x hx => ?_⟩
    rcases Nat.lt_succ_iff_lt_or_eq.1 hx with h | h
    · exact Nat.le_trans (hm x h) (Nat.le_max_left ..)
    · subst h; exact Nat.le_max_right ..

/-- C78: While no call is in flight, there are at most so many. So `WeakSlice`s keep no guards. -/
theorem C78_guards_rest (hP : PTame P) (h : Conf.PReach P zst c) (hq : c.Quiet) (hm : ∀ b, b < c.a.b.sk.nbuf → c.a.b.sk.blen b ≤ 2 ^ m) :
    c.liveGuards.length ≤ c.strongs * (m + 2) := by
  have := C78_guards hP h hm
  rwa [(quiet_work hq).1, (quiet_work hq).2] at this

/-- C78: While no call is in flight, the blocks of memory that are there although what was in them has been dropped are at most one for each handle. -/
theorem C78_husks (hP : PTame P) (h : WConf.Reach P zst w) (hq : w.c.Quiet) (hd : w.due = []) : w.husks.length ≤ w.c.strongs + w.c.weaks := by
  have A := h.preach.IA' hP
  have B := A.bi
  let K : List Nat := w.c.hs.filterMap fun o => match o with
    | some ⟨.strong d _, _⟩ => w.c.a.par d
    | _ => none
  let L : List Nat := w.c.hs.filterMap fun o => match o with
    | some ⟨.weak d _, _⟩ => d
    | _ => none
  have hK : K.length ≤ w.c.strongs := by
    simp only [K]
    rw [List.length_filterMap_eq_countP, Conf.strongs]
    refine List.countP_mono_left fun o _ ho => ?_
    split at ho <;> simp_all
  have hL : L.length ≤ w.c.weaks := by
    simp only [L]
    rw [List.length_filterMap_eq_countP, Conf.weaks]
    refine List.countP_mono_left fun o _ ho => ?_
    split at ho <;> simp_all
  refine Nat.le_trans (Rc.subset_len (m := K ++ L) (List.nodup_range.sublist List.filter_sublist) fun x hx => ?_) (by rw [List.length_append]; omega)
  obtain ⟨_, h2⟩ := List.mem_filter.1 hx
  simp only [Bool.and_eq_true, Option.isNone_iff_eq_none] at h2
  rcases (C63_rest hP h hq hd x).1 h2.2 with ⟨n, hn⟩ | ⟨y, n, hy, hp⟩ | ⟨k, g, b, hk⟩
  · rw [h2.1] at hn; cases hn
  · refine List.mem_append_left _ ?_
    rcases B.heap.data_holder (h.preach.ParD hP y x hp) (by rw [hy]; rfl) with h3 | ⟨z, v, s, hz, hs⟩
    · obtain ⟨j, g, b, hj⟩ := quiet_ref hq h3
      exact List.mem_filterMap.2 ⟨_, Conf.get_mem hj, hp⟩
    · have := B.par.kid z v s y hz hs
      rw [hp] at this; cases this
      rw [h2.1] at hz; cases hz
  · exact List.mem_append_right _ (List.mem_filterMap.2 ⟨_, Conf.get_mem hk, rfl⟩)

/-- C78: If `WeakSlice`s are all that is left, then they keep no items, no arrays, no guards, and at most one block of memory for each. -/
theorem C78_weak (hP : PTame P) (h : WConf.Reach P zst w) (hq : w.c.Quiet) (hd : w.due = []) (ho : w.c.OnlyWeak) :
    (∀ b i, ¬ w.c.Present b i) ∧ (∀ b, w.c.a.b.sk.mem b = false) ∧ w.c.liveGuards = [] ∧ w.keptBlocks.length ≤ w.c.weaks := by
  have A := h.preach.IA' hP
  have s0 : w.c.strongs = 0 := by
    rw [Conf.strongs, List.countP_eq_zero]
    intro o hm hs
    split at hs
    · obtain ⟨k, hk⟩ := List.mem_iff_getElem?.1 hm
      obtain ⟨d, g, e⟩ := ho k _ (by rw [Conf.get, hk]; rfl)
      cases e
    · cases hs
  have hT : ∀ t ∈ w.c.T, t.S = [] ∧ t.G = [] := by
    intro t ht
    obtain ⟨m, e, h1, h2⟩ := quiet_tok hq ht
    obtain ⟨d, g, hh⟩ := ho m e h1
    simp only [entT, hh, List.mem_map] at h2
    obtain ⟨_, _, rfl⟩ := h2
    exact ⟨rfl, rfl⟩
  have hS : aS w.c.T = [] := List.flatMap_eq_nil_iff.2 fun t ht => (hT t ht).1
  have hG : aG w.c.T = [] := List.flatMap_eq_nil_iff.2 fun t ht => (hT t ht).2
  have I := A.bi.heap
  have g := I.good
  rw [hS, hG] at g
  have N := Rc.Inv.nothing (h := w.c.a.b) ⟨g, fun t ht => absurd ht (List.not_mem_nil), I.bufs⟩
  refine ⟨?_, N.2.2.2.1, ?_, ?_⟩
  · rintro b i ⟨a, ha⟩
    exact N.2.2.2.2 b i a ha
  · obtain ⟨m, hm⟩ := bounded (fun x => (w.c.a.b.sk.lab x).path.length) w.c.a.b.sk.next
    have h1 := h.preach.guards_le hP fun x hx _ => hm x hx
    have h2 := Conf.held_le (c := w.c)
    rw [s0, (quiet_work hq).1, (quiet_work hq).2] at h2
    rw [Nat.le_zero.1 h2, Nat.zero_mul] at h1
    exact List.eq_nil_of_length_eq_zero (Nat.le_zero.1 h1)
  · have := C78_husks hP h hq hd
    rw [s0, Nat.zero_add] at this
    refine Nat.le_trans (Nat.le_of_eq (congrArg List.length (List.filter_congr fun x _ => ?_))) this
    rw [N.1 x]; rfl

/-! ## Programs that meet the hypotheses -/

namespace Arc

/-- The left half, a `WeakSlice` of the whole, and the memory of the whole, which has been dropped; the guard of the whole is kept by that of the half. -/
example : (wafter halfLeft).c.strongs = 1 ∧ (wafter halfLeft).c.weaks = 1 ∧ (wafter halfLeft).husks.length = 1 ∧ (wafter halfLeft).c.liveGuards.length = 2 ∧
    (wafter halfLeft).c.strongs * (1 + 2) = 3 := by decide +kernel

example : (wafter halfLeft).c.liveGuards.length ≤ (wafter halfLeft).c.strongs * (1 + 2) ∧ (wafter halfLeft).husks.length ≤ (wafter halfLeft).c.strongs + (wafter halfLeft).c.weaks :=
  have h := wafter_reach (as := halfLeft) (by decide +kernel)
  have hP : PTame (α := Nat) (fun c op => c.careful op = true) := fun _ _ _ _ h => h
  ⟨C78_guards_rest hP h.preach (by unfold Conf.Quiet; decide +kernel) (by decide +kernel), C78_husks hP h (by unfold Conf.Quiet; decide +kernel) (by decide +kernel)⟩

/-- The `WeakSlice` of the whole is all that is left. -/
example : (wafter onlyWeakLeft).c.liveGuards = [] ∧ (wafter onlyWeakLeft).keptBlocks.length = 1 ∧ (wafter onlyWeakLeft).c.weaks = 1 := by decide +kernel

/-- The hypotheses of `C78_weak` are met by `onlyWeakLeft` (see `Props/ArcWeak.lean` for `OnlyWeak`). While a call is in flight, guards may be held by that call alone:
here by one that takes a left half and has just made the guard of it. -/
example : (pafter deepGuard).strongs = 1 ∧ (pafter deepGuard).active = 1 ∧ (pafter deepGuard).liveGuards.length ≤ (1 + 1 + 0) * (2 + 2) :=
  have hP : PStrict (α := Nat) (fun c op => c.strict op = true) := fun _ _ _ _ h => h
  have h := C78_guards (m := 2) hP.tame deepGuard_reach (by decide +kernel)
  ⟨by decide +kernel, by decide +kernel, h⟩

end Arc
end Verif
