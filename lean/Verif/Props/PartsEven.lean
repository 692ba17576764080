import Verif.Props.Iteration
/-!
# C04, C06, C11: what the iterators yield

`Props/Iteration.lean` has C04, C06 and C11 for the parts of the specification, and says that the iterators yield these. Here they are put together:
statements about what the code yields.
-/

namespace Verif
open Spec

/-- What was yielded, and what is left, is what there was. -/
theorem deqRun_perm {β : Type} (w : List End) (l : List β) : ((deqRun w l).1.filterMap id ++ (deqRun w l).2).Perm l := by
  induction w generalizing l with
  | nil => exact .refl l
  | cons e w ih =>
    cases e with
    | front =>
      cases l with
      | nil => exact ih []
      | cons x l => exact (ih l).cons x
    | back =>
      rcases List.eq_nil_or_concat l with rfl | ⟨l, x, rfl⟩
      · exact ih []
      · have : (deqStep .back (l.concat x)) = (some x, l) := by simp [deqStep]
        simp only [deqRun, this]
        rw [List.concat_eq_append]
        exact ((ih l).cons x).trans (List.perm_append_singleton x l).symm

theorem deqRun_rest_length {β : Type} (w : List End) (l : List β) : (deqRun w l).2.length = l.length - w.length := by
  induction w generalizing l with
  | nil => rfl
  | cons e w ih =>
    have : (deqStep e l).2.length = l.length - 1 := by cases e <;> simp [deqStep]
    simp only [deqRun, ih, this, List.length_cons]
    omega

theorem deqRun_all {β : Type} {w : List End} {l : List β} (h : l.length ≤ w.length) : ((deqRun w l).1.filterMap id).Perm l := by
  have h1 := deqRun_perm w l
  have h2 : (deqRun w l).2 = [] := List.eq_nil_of_length_eq_zero (by rw [deqRun_rest_length]; omega)
  rwa [h2, List.append_nil] at h1

theorem deqRun_mem {β : Type} {w : List End} {l : List β} {x : β} (h : some x ∈ (deqRun w l).1) : x ∈ l :=
  (deqRun_perm w l).subset (List.mem_append_left _ (List.mem_filterMap.2 ⟨_, h, rfl⟩))

theorem filterMap_map {β γ : Type} (f : β → γ) (l : List (Option β)) : (l.map (Option.map f)).filterMap id = (l.filterMap id).map f := by
  induction l with
  | nil => rfl
  | cons o l ih => cases o <;> simp_all

/-- The ranges among the parts. -/
theorem even_of {m : Nat} {r : Rng} {w : List End} {S : Type} (f : Rng → S) (len : S → Nat) (hf : ∀ p, len (f p) = p.len) :
    (∀ s, some s ∈ (deqRun w (rparts m r)).1.map (Option.map f) → len s = r.len / 2 ^ m ∨ len s = (r.len + 2 ^ m - 1) / 2 ^ m) ∧
    (2 ^ m ≤ w.length → (((deqRun w (rparts m r)).1.map (Option.map f)).filterMap id).length = 2 ^ m ∧
      ((((deqRun w (rparts m r)).1.map (Option.map f)).filterMap id).map len).sum = r.len ∧
      ∃ ps : List Rng, ((deqRun w (rparts m r)).1.map (Option.map f)).filterMap id = ps.map f ∧ (ps.flatMap Rng.items).Perm (List.range' r.off r.len)) := by
  obtain ⟨h1, h2⟩ := C06_even m r
  constructor
  · intro s hs
    obtain ⟨o, ho, he⟩ := List.mem_map.1 hs
    cases o with
    | none => cases he
    | some p => cases he; rw [hf]; exact h1 p (deqRun_mem ho)
  · intro hw
    have p := deqRun_all (w := w) (l := rparts m r) (by rw [rparts, parts_length]; exact hw)
    rw [filterMap_map]
    refine ⟨by rw [List.length_map, p.length_eq, rparts, parts_length], ?_, _, rfl, ?_⟩
    · rw [List.map_map, show len ∘ f = Rng.len from funext hf, (p.map Rng.len).sum_nat, h2]
    · rw [← C04_parts_partition]; exact p.flatMap_right _

/-- C06, `RcSliceParts` and `ArcSliceParts`: all parts that are yielded have `⌊n/k⌋` or `⌈n/k⌉` items, where `n` is the number of items and `k = 2^m`; however `next` and `next_back`
are mixed. After `k` calls `k` parts have been yielded, their lengths add up to `n`, and every item is in exactly one of them. -/
theorem C06_shared (C : Ctx) (r : Rng) (hr : InBuf C r) (m : Nat) (debug : Bool) (hm : 2 ^ m ≤ C.umax) (w : List End) :
    ∃ it it' outs, BinaryPartsIter.new (raw C r) (2 ^ m) = .ok it ∧
      runWalk (BinaryPartsIter.step (RawSlice.splitOffLeft C) (RawSlice.splitOffRight C) C.umax debug) w it = .ok (outs, it') ∧
      (∀ s, some s ∈ outs → s.len = r.len / 2 ^ m ∨ s.len = (r.len + 2 ^ m - 1) / 2 ^ m) ∧
      (2 ^ m ≤ w.length → (outs.filterMap id).length = 2 ^ m ∧ ((outs.filterMap id).map RawSlice.len).sum = r.len ∧
        ∃ ps : List Rng, outs.filterMap id = ps.map (raw C) ∧ (ps.flatMap Rng.items).Perm (List.range' r.off r.len)) := by
  obtain ⟨it, it', h1, h2⟩ := C03_shared_walk C r hr m debug hm w
  exact ⟨it, it', _, h1, h2, even_of (raw C) RawSlice.len fun _ => rfl⟩

/-- C06, and C04, for `RcSliceMutParts` and `ArcSliceMutParts`. -/
theorem C06_unique (C : Ctx) (r : Rng) (hr : InBuf C r) (m : Nat) (hm : 2 ^ m ≤ C.umax) (w : List End) :
    ∃ it it' outs, SliceItemsParts.new (enc C r) (2 ^ m) = .ok it ∧ runWalk (SliceItemsParts.step C) w it = .ok (outs, it') ∧
      (∀ s, some s ∈ outs → s.len = r.len / 2 ^ m ∨ s.len = (r.len + 2 ^ m - 1) / 2 ^ m) ∧
      (2 ^ m ≤ w.length → (outs.filterMap id).length = 2 ^ m ∧ ((outs.filterMap id).map SliceItems.len).sum = r.len ∧
        ∃ ps : List Rng, outs.filterMap id = ps.map (enc C) ∧ (ps.flatMap Rng.items).Perm (List.range' r.off r.len)) := by
  obtain ⟨it, it', h1, h2⟩ := C04_unique_walk C r hr m hm w
  exact ⟨it, it', _, h1, h2, even_of (enc C) SliceItems.len fun _ => rfl⟩

/-- What iterators still hold is what draining them yields. -/
theorem drain_all {C : Ctx} (hC : C.Valid) {o n : Nat} {pool : List SliceItemsIter} {spool : List (List Nat)}
    (h : SliceItemsIter.All2 (SliceItemsIter.Rep C o) pool spool) (hn : ∀ xs ∈ spool, xs.length ≤ n) :
    pool.map (drain C n) = (spool.map (List.map (loc C o))).map .ok := by
  induction h with
  | nil => rfl
  | cons hr _ ih =>
    simp only [List.map_cons]
    rw [drain_rep hC hr n (hn _ List.mem_cons_self), ih fun xs hx => hn xs (List.mem_cons_of_mem _ hx)]

/-- C11: `into_iter()` on a unique slice, and any history of calls on the iterator and on the iterators split off from it: no item is handed out
twice; what was handed out, together with what the iterators yield if they are drained afterwards, is exactly the items of the slice. -/
theorem C11_conserves (C : Ctx) (hC : C.Valid) (r : Rng) (hr : InBuf C r) (ops : List IterOp) :
    ∃ it outs pool, ∃ rests : List (List Nat), SliceItemsIter.new C (enc C r) = .ok it ∧
      SliceItemsIter.poolRun C ops [it] = .ok (outs, pool) ∧
      pool.map (drain C r.len) = rests.map .ok ∧
      (yielded outs ++ rests.flatten).Perm ((List.range' r.off r.len).map (loc C r.off)) ∧
      (yielded outs ++ rests.flatten).Nodup := by
  obtain ⟨it, h1, h2⟩ := SliceItemsIter.new_rep C r hr
  obtain ⟨p, h3, h4⟩ := SliceItemsIter.poolRun_rep hC ops (.cons h2 .nil)
  have hp := C11_once C r ops
  rw [List.map_flatten] at hp
  refine ⟨it, _, p, _, h1, h3, drain_all hC h4 ?_, hp, hp.nodup_iff.2 (C11_locations_distinct C r)⟩
  intro xs hx
  have hl := (C11_spec_conserves ops [r.items]).length_eq
  have := (List.sublist_flatten_of_mem hx).length_le
  simp [Rng.items] at hl this
  omega

/-- The hypotheses are met. -/
example : exC.Valid ∧ InBuf exC exR ∧ 2 ^ 2 ≤ exC.umax ∧ 2 ^ 2 ≤ [End.back, .front, .front, .back, .back].length := by
  refine ⟨?_, ?_, by decide, by decide⟩
  · exact exC_valid
  simp [InBuf, exC, exR]

end Verif
