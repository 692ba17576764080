import Verif.Props.ArcSafety
/-!
# C40: what `ArcSlice` does release

`C40_fails` in `ArcFails.lean`: the boxed pointers to guards are never freed. Everything else
is.
-/

namespace Verif
open Arc
open Spec (Side Slot)
variable {α : Type} {P : Rules α} {zst : Bool} {c c' : Conf α}

namespace Arc

theorem no_tokens (hq : c.Quiet) (hn : c.NoHandles) : c.T = [] := by
  have h1 : c.calls.flatMap callT = [] := by
    rw [List.flatMap_eq_nil_iff]
    intro cl hcl
    obtain ⟨r, h1, h2⟩ := fin_pc (hq cl hcl)
    simp [callT, h1, h2, pcT]
  have h2 : c.hs.flatMap slotT = [] := by
    rw [List.flatMap_eq_nil_iff]
    intro o ho
    cases o with
    | none => rfl
    | some e =>
      obtain ⟨k, hk⟩ := List.getElem?_of_mem ho
      have := hn k
      simp [Conf.get, hk] at this
  rw [Conf.T, h1, h2]; rfl

theorem prefs_mem {f : Nat → Option GuardV} {n g : Nat} (h : 0 < prefs f n g) : ∃ x v, x < n ∧ f x = some v ∧ v.parent = some g := by
  simp only [prefs, List.countP_pos_iff, List.mem_range] at h
  obtain ⟨x, h1, h2⟩ := h
  cases hx : f x with
  | none => simp [hx] at h2
  | some v => exact ⟨x, v, h1, hx, by simpa [hx] using h2⟩

theorem released (A : c.IA false) (hq : c.Quiet) (hn : c.NoHandles) :
    (∀ b i, ¬ c.Present b i) ∧ (∀ b, c.a.b.sk.mem b = false) ∧ (∀ x, c.a.b.sk.node x = none ∧ c.a.b.strong x = 0) ∧
    (∀ g, c.a.guard g = none ∧ c.a.gS g = 0) ∧ ∀ g, c.a.gW g = if g < c.a.ng then 1 else 0 := by
  have B := A.bi
  have F := A.gf.gf
  have hT := no_tokens hq hn
  have I := B.heap
  rw [hT] at I
  obtain ⟨h1, h2, _, h4, h5⟩ := Rc.Inv.nothing (h := c.a.b) ⟨I.good, fun t ht => absurd ht (List.not_mem_nil), I.bufs⟩
  have G := B.gi
  have hD : aGd c.T = [] := by rw [hT]; rfl
  have hg : ∀ n g v, c.a.guard g = some v → c.a.ng - g ≤ n → False := by
    intro n
    induction n with
    | zero =>
      intro g v hv hle
      have := F.lt g v hv; omega
    | succ n ih =>
      intro g v hv hle
      have hs := (G.live g).2 ⟨v, hv⟩
      rw [G.strong g, hD] at hs
      simp only [List.count_nil, Nat.zero_add] at hs
      obtain ⟨x, w, hx, hw, hp⟩ := prefs_mem hs
      have := (F.link1 x w g hw hp).1
      have := F.lt g v hv
      exact ih x w hw (by omega)
  have hgn : ∀ g, c.a.guard g = none := by
    intro g
    cases hv : c.a.guard g with
    | none => rfl
    | some v => exact (hg _ g v hv (Nat.le_refl _)).elim
  refine ⟨fun b i ⟨x, hx⟩ => h5 b i x hx, h4, fun x => ⟨h1 x, h2 x⟩, fun g => ⟨hgn g, ?_⟩, fun g => ?_⟩
  · have := G.live g
    rw [hgn g] at this
    simp only [reduceCtorEq, exists_false, iff_false] at this; omega
  · have := G.weak g
    rw [hT] at this
    simpa using this

end Arc

/-- C40, the part that holds: once all handles are gone and no call is in flight, all items,
the memory they were in, all nodes (`ArcSliceData`, `SliceAlloc`) and all guards have been
released. What is missing for C40: each guard that was ever made is still referred to by
exactly one `Weak`, the one in the box made for it, so the box and the memory block of the
guard are never returned (`C40_fails`). -/
theorem C40_partial (hP : Tame P) (h : Conf.Reach P zst c) (hq : c.Quiet) (hn : c.NoHandles) :
    (∀ b i, ¬ c.Present b i) ∧ (∀ b, c.a.b.sk.mem b = false) ∧ (∀ x, c.a.b.sk.node x = none ∧ c.a.b.strong x = 0) ∧
    (∀ g, c.a.guard g = none ∧ c.a.gS g = 0) ∧ ∀ g, c.a.gW g = if g < c.a.ng then 1 else 0 := released (h.IA' hP) hq hn

/-! ## A program that meets the hypotheses -/

namespace Arc

/-- The three threads of `threeThreads` drop their handles. -/
def allDropped : List (Act Nat) :=
  threeThreads ++ [.op (.drop 3), .op (.drop 4), .op (.drop 2), .run 9 5, .run 7 1, .run 8 4, .run 7 20, .run 8 20]

theorem allDropped_reach : Conf.Reach (only Op.NoIntoMut) false (after allDropped) :=
  exec_reach (as := allDropped) .init (by
    intro o ho
    simp only [allDropped, threeThreads, prelude, List.cons_append, List.nil_append, List.mem_cons, Act.op.injEq, reduceCtorEq, false_or,
      List.not_mem_nil, or_false] at ho
    rcases ho with rfl | rfl | rfl | rfl | rfl | rfl | rfl | rfl | rfl | rfl <;> trivial) rfl

/-- Buffer 0 had two items and memory, both are gone; three guards were made. -/
example : (after allDropped).Quiet ∧ (after allDropped).NoHandles ∧ (after allDropped).a.b.slot 0 0 = .dropped ∧
    (after allDropped).a.ng = 3 ∧ (after allDropped).a.b.sk.nbuf = 1 :=
  ⟨by unfold Conf.Quiet; decide, (by
      intro k
      match k with
      | 0 => rfl
      | 1 => rfl
      | 2 => rfl
      | 3 => rfl
      | 4 => rfl
      | k + 5 => rfl), rfl, rfl, rfl⟩

end Arc
end Verif
