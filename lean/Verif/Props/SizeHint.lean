import Verif.Model.SizeHint
import Verif.Props.Iteration
/-!
# C07: `size_hint` and `count` are exact

Whatever was called before, the numbers that `size_hint` and `count` return are the number of times that `next` and `next_back` will return something.
-/

namespace Verif
open Spec

/-- Of these results the first `n` are `Some`, and the others are `None`. -/
def FirstSome {β : Type} (n : Nat) (outs : List (Option β)) : Prop := ∀ i o, outs[i]? = some o → (o.isSome ↔ i < n)

theorem deqRun_first {β : Type} (w : List End) (xs : List β) : FirstSome xs.length (deqRun w xs).1 := by
  induction w generalizing xs with
  | nil => intro i o h; cases h
  | cons e w ih =>
    intro i o h
    simp only [deqRun] at h
    cases i with
    | zero =>
      simp only [List.getElem?_cons_zero, Option.some.injEq] at h
      subst h
      cases e <;> cases xs <;> simp [deqStep]
    | succ i =>
      simp only [List.getElem?_cons_succ] at h
      have := ih _ i o h
      rw [this]
      cases e <;> simp only [deqStep, List.length_tail, List.length_dropLast] <;> omega

theorem deqRun_length {β : Type} (w : List End) (xs : List β) : (deqRun w xs).1.length = w.length := by
  induction w generalizing xs with
  | nil => rfl
  | cons e w ih => simp [deqRun, ih]

theorem FirstSome.map {β γ : Type} {n : Nat} {outs : List (Option β)} (h : FirstSome n outs) (f : β → γ) : FirstSome n (outs.map (Option.map f)) := by
  intro i o e
  rw [List.getElem?_map] at e
  obtain ⟨o', e', rfl⟩ := Option.map_eq_some_iff.1 e
  rw [Option.isSome_map]
  exact h i o' e'

theorem size_hint_split {S : Type} {Good : S → Prop} {l r : S → S} {sl sr : S → Except Fault (S × S)} (hs : SplitOK Good l r sl sr) {s : S} (hg : Good s) {umax m : Nat}
    (debug : Bool) (hm : 2 ^ m ≤ umax) (w : List End) :
    ∃ it it' outs n, BinaryPartsIter.new s (2 ^ m) = .ok it ∧ runWalk (BinaryPartsIter.step sl sr umax debug) w it = .ok (outs, it') ∧
      it'.sizeHint = .ok (n, some n) ∧ it'.count = .ok n ∧
      ∀ w', ∃ outs' it'', runWalk (BinaryPartsIter.step sl sr umax debug) w' it' = .ok (outs', it'') ∧ outs'.length = w'.length ∧ FirstSome n outs' := by
  obtain ⟨c, h1, h2, -⟩ := BinaryPartsIter.walk_state hs m s hg umax debug hm w 0 0 (capOf m) (fun _ => Nat.le_refl _) (Nat.zero_le _)
  have hle := cnts_le w (2 ^ m) 0 0 (Nat.zero_le _)
  have hl := BinaryPartsIter.len_eq (m := Except Fault) (BinaryPartsIter.state l r m (cnts w (2 ^ m) 0 0).1 (cnts w (2 ^ m) 0 0).2 c s)
    (by simpa [BinaryPartsIter.state] using hle)
  refine ⟨_, _, _, 2 ^ m - (cnts w (2 ^ m) 0 0).1 - (cnts w (2 ^ m) 0 0).2, BinaryPartsIter.new_pow _ m _ _, h1, ?_, ?_, fun w' => ?_⟩
  · unfold BinaryPartsIter.sizeHint exactSizeHint; rw [hl]; rfl
  · unfold BinaryPartsIter.count exactCount; rw [hl]; rfl
  · obtain ⟨c', h3, -⟩ := BinaryPartsIter.walk_state hs m s hg umax debug hm w' _ _ c (fun _ => h2) hle
    refine ⟨_, _, h3, deqRun_length _ _, ?_⟩
    have := deqRun_first w' (win (parts l r m s) (cnts w (2 ^ m) 0 0).1 (cnts w (2 ^ m) 0 0).2)
    rwa [win_length, parts_length] at this

/-- C07, shared parts. -/
theorem C07_size_hint_shared (C : Ctx) (r : Rng) (hr : InBuf C r) (m : Nat) (debug : Bool) (hm : 2 ^ m ≤ C.umax) (w : List End) :
    ∃ it it' outs n, BinaryPartsIter.new (raw C r) (2 ^ m) = .ok it ∧
      runWalk (BinaryPartsIter.step (RawSlice.splitOffLeft C) (RawSlice.splitOffRight C) C.umax debug) w it = .ok (outs, it') ∧
      it'.sizeHint = .ok (n, some n) ∧ it'.count = .ok n ∧
      ∀ w', ∃ outs' it'', runWalk (BinaryPartsIter.step (RawSlice.splitOffLeft C) (RawSlice.splitOffRight C) C.umax debug) w' it' = .ok (outs', it'') ∧
        outs'.length = w'.length ∧ FirstSome n outs' :=
  size_hint_split (rawSplit C) ⟨r, hr, rfl⟩ debug hm w

/-- C07, unique parts. -/
theorem C07_size_hint_unique (C : Ctx) (r : Rng) (hr : InBuf C r) (m : Nat) (hm : 2 ^ m ≤ C.umax) (w : List End) :
    ∃ it it' outs n, SliceItemsParts.new (enc C r) (2 ^ m) = .ok it ∧ runWalk (SliceItemsParts.step C) w it = .ok (outs, it') ∧
      it'.sizeHint = .ok (n, some n) ∧ it'.count = .ok n ∧
      ∀ w', ∃ outs' it'', runWalk (SliceItemsParts.step C) w' it' = .ok (outs', it'') ∧ outs'.length = w'.length ∧ FirstSome n outs' := by
  have h1 := SliceItemsParts.walk_pstate C m r hr hm w 0 0 (Nat.zero_le _)
  have hle := cnts_le w (2 ^ m) 0 0 (Nat.zero_le _)
  have hl := SliceItemsParts.len_pstate C m (cnts w (2 ^ m) 0 0).1 (cnts w (2 ^ m) 0 0).2 r hle
  refine ⟨_, _, _, 2 ^ m - (cnts w (2 ^ m) 0 0).1 - (cnts w (2 ^ m) 0 0).2, SliceItemsParts.new_pow C m r, h1, ?_, ?_, fun w' => ?_⟩
  · unfold SliceItemsParts.sizeHint exactSizeHint; rw [hl]; rfl
  · unfold SliceItemsParts.count exactCount; rw [hl]
  · have h3 := SliceItemsParts.walk_pstate C m r hr hm w' _ _ hle
    refine ⟨_, _, h3, by rw [List.length_map, deqRun_length], FirstSome.map ?_ _⟩
    have := deqRun_first w' (win (rparts m r) (cnts w (2 ^ m) 0 0).1 (cnts w (2 ^ m) 0 0).2)
    rwa [win_length, parts_length] at this

/-- `next` or `next_back` of an iterator of items. -/
def SliceItemsIter.stepEnd (C : Ctx) : End → SliceItemsIter → Except Fault (Option Nat × SliceItemsIter)
  | .front, it => it.next C
  | .back, it => it.nextBack C

/-- C07, iterators of items: after any history, also one that splits iterators. -/
theorem C07_size_hint_items (C : Ctx) (hC : C.Valid) (r : Rng) (hr : InBuf C r) (ops : List IterOp) :
    ∃ it0 outs pool, SliceItemsIter.new C (enc C r) = .ok it0 ∧ SliceItemsIter.poolRun C ops [it0] = .ok (outs, pool) ∧
      ∀ it ∈ pool, ∃ n, it.sizeHint C = .ok (n, some n) ∧ it.count C = .ok n ∧
        ∀ w, ∃ outs' it', runWalk (SliceItemsIter.stepEnd C) w it = .ok (outs', it') ∧ outs'.length = w.length ∧ FirstSome n outs' := by
  obtain ⟨it0, h1, h2⟩ := SliceItemsIter.new_rep C r hr
  obtain ⟨pool, h3, h4⟩ := SliceItemsIter.poolRun_rep hC ops (.cons h2 .nil)
  refine ⟨it0, _, pool, h1, h3, fun it hit => ?_⟩
  obtain ⟨i, hi⟩ := List.mem_iff_getElem?.1 hit
  rcases h4.get i with ⟨hx, -⟩ | ⟨it', xs, hit', hxs, hrep⟩
  · rw [hi] at hx; cases hx
  rw [hi] at hit'; cases hit'
  have hl := SliceItemsIter.rep_len hrep
  refine ⟨xs.length, ?_, ?_, fun w => ?_⟩
  · unfold SliceItemsIter.sizeHint exactSizeHint; rw [hl]; rfl
  · unfold SliceItemsIter.count exactCount; rw [hl]
  · suffices hw : ∃ it', runWalk (SliceItemsIter.stepEnd C) w it = .ok ((deqRun w xs).1.map (Option.map (loc C r.off)), it') by
      obtain ⟨it', hw⟩ := hw
      exact ⟨_, it', hw, by rw [List.length_map, deqRun_length], (deqRun_first w xs).map _⟩
    clear hit hi hxs hl
    induction w generalizing it xs with
    | nil => exact ⟨it, rfl⟩
    | cons e w ih =>
      cases e with
      | front =>
        obtain ⟨it1, g1, g2⟩ := SliceItemsIter.next_rep hC hrep
        obtain ⟨it2, g3⟩ := ih _ _ g2
        exact ⟨it2, by simp only [runWalk, SliceItemsIter.stepEnd, g1, g3, deqRun, deqStep, List.map_cons]⟩
      | back =>
        obtain ⟨it1, g1, g2⟩ := SliceItemsIter.nextBack_rep hrep
        obtain ⟨it2, g3⟩ := ih _ _ g2
        exact ⟨it2, by simp only [runWalk, SliceItemsIter.stepEnd, g1, g3, deqRun, deqStep, List.map_cons]⟩

/-- The hypotheses are met by the eight parts of seven items. -/
example : InBuf exC exR ∧ 2 ^ 3 ≤ exC.umax ∧ exC.Valid := ⟨by decide, by decide, exC_valid⟩
/-- Three results of five are `Some`. -/
example : FirstSome 3 [some 1, some 2, some 3, none, (none : Option Nat)] ∧ ¬ FirstSome 2 [some 1, some 2, some 3, none, (none : Option Nat)] := by
  constructor
  · intro i o h
    match i, h with
    | 0, h | 1, h | 2, h | 3, h | 4, h => cases h; decide
    | _ + 5, h => cases h
  · intro h
    exact absurd ((h 2 (some 3) rfl).1 rfl) (by decide)

end Verif
