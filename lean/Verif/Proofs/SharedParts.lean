import Verif.Proofs.MutParts
import Verif.Model.SubSlice
/-! Shared handles: halving and `BinaryPartsIter::as_slice`. -/

namespace Verif
open Spec

theorem rightSub_eq (C : Ctx) (r : Rng) (h : InBuf C r) : (raw C r).rightSub C = .ok (raw C r.right) := by
  have hb : r.off + r.len ≤ C.cnt := h
  unfold RawSlice.rightSub raw
  simp only [shr1]
  by_cases hz : C.size = 0
  · rw [if_pos hz, subU_eq (by omega), bind_ok]; simp [hz, Rng.right, pure, Except.pure]
  · rw [if_neg hz, ptrAdd_eq _ _ _ (by omega), bind_ok, subU_eq (by omega), bind_ok]; rfl

theorem cloneLeft_eq (C : Ctx) (r : Rng) : (raw C r).cloneLeft = raw C r.left := by
  unfold RawSlice.cloneLeft RawSlice.leftSub raw
  simp only [shr1, Rng.left]
  split
  · congr 1; omega
  · rfl

theorem cloneRight_eq (C : Ctx) (r : Rng) (h : InBuf C r) : (raw C r).cloneRight C = .ok (raw C r.right) := by
  unfold RawSlice.cloneRight
  split
  · rename_i h1
    simp only [raw] at h1 ⊢
    simp only [pure, Except.pure, Rng.right]
    rw [show r.len / 2 = 0 by omega]; rfl
  · exact rightSub_eq C r h

/-- `RcSlice`/`ArcSlice` splitting is halving of ranges, for handles inside the buffer. -/
theorem rawSplit (C : Ctx) : SplitOK (m := Except Fault) (fun s => ∃ r, InBuf C r ∧ s = raw C r)
    (fun s => (s.cloneLeft)) (fun s => match s.cloneRight C with | .ok x => x | .error _ => s)
    (RawSlice.splitOffLeft C) (RawSlice.splitOffRight C) := by
  refine ⟨?_, ?_, ?_, ?_⟩
  · rintro s ⟨r, h, rfl⟩
    unfold RawSlice.splitOffLeft
    simp only [cloneLeft_eq, cloneRight_eq C r h]; rfl
  · rintro s ⟨r, h, rfl⟩
    unfold RawSlice.splitOffRight
    simp only [cloneLeft_eq, cloneRight_eq C r h]; rfl
  · rintro s ⟨r, h, rfl⟩
    exact ⟨r.left, h.left, cloneLeft_eq C r⟩
  · rintro s ⟨r, h, rfl⟩
    exact ⟨r.right, h.right, by simp only [cloneRight_eq C r h]⟩

theorem map_parts {S T : Type} (g : S → T) (Good : S → Prop) (l r : S → S) (l' r' : T → T)
    (hl : ∀ s, Good s → l' (g s) = g (l s)) (hr : ∀ s, Good s → r' (g s) = g (r s))
    (gl : ∀ s, Good s → Good (l s)) (gr : ∀ s, Good s → Good (r s)) (k : Nat) (s : S) (hs : Good s) :
    parts l' r' k (g s) = (parts l r k s).map g := by
  induction k generalizing s with
  | zero => rfl
  | succ k ih => rw [parts, parts, List.map_append, hl s hs, hr s hs, ih _ (gl s hs), ih _ (gr s hs)]

theorem map_pend {S T : Type} (g : S → T) (Good : S → Prop) (l r : S → S) (l' r' : T → T)
    (hl : ∀ s, Good s → l' (g s) = g (l s)) (hr : ∀ s, Good s → r' (g s) = g (r s))
    (gl : ∀ s, Good s → Good (l s)) (gr : ∀ s, Good s → Good (r s)) (k f b : Nat) (s : S) (hs : Good s) :
    pend l' r' k f b (g s) = (pend l r k f b s).map g := by
  induction k generalizing f b s with
  | zero => simp only [pend]; split <;> rfl
  | succ k ih =>
    simp only [pend]; split
    · rfl
    · rw [List.map_append, hl s hs, hr s hs, ih _ _ _ (gl s hs), ih _ _ _ (gr s hs)]

/-- Pure versions of the splitting functions of shared handles. -/
abbrev rawL (s : RawSlice) : RawSlice := s.cloneLeft
abbrev rawR (C : Ctx) (s : RawSlice) : RawSlice := match s.cloneRight C with | .ok x => x | .error _ => s

theorem raw_parts (C : Ctx) (k : Nat) (r : Rng) (h : InBuf C r) :
    parts rawL (rawR C) k (raw C r) = (rparts k r).map (raw C) :=
  map_parts (raw C) (InBuf C) Rng.left Rng.right _ _ (fun s _ => cloneLeft_eq C s)
    (fun s hs => by simp only [rawR, cloneRight_eq C s hs]) (fun _ h => h.left) (fun _ h => h.right) k r h

theorem raw_pend (C : Ctx) (k f b : Nat) (r : Rng) (h : InBuf C r) :
    pend rawL (rawR C) k f b (raw C r) = (pend Rng.left Rng.right k f b r).map (raw C) :=
  map_pend (raw C) (InBuf C) Rng.left Rng.right _ _ (fun s _ => cloneLeft_eq C s)
    (fun s hs => by simp only [rawR, cloneRight_eq C s hs]) (fun _ h => h.left) (fun _ h => h.right) k f b r h

theorem foldlM_sum (C : Ctx) (xs : List Rng) (acc : Nat) (h : acc + (xs.map Rng.len).sum ≤ C.umax) :
    (xs.map (raw C)).foldlM (fun acc s => (addU C.umax acc s.len : Except Fault Nat)) acc =
      .ok (acc + (xs.map Rng.len).sum) := by
  induction xs generalizing acc with
  | nil => rfl
  | cons x xs ih =>
    simp only [List.map_cons, List.sum_cons] at h
    simp only [List.map_cons, List.foldlM_cons, List.sum_cons]
    rw [addU_eq (by simp [raw]; omega), bind_ok, ih _ (by simp [raw]; omega)]
    simp [raw, Nat.add_assoc]

namespace BinaryPartsIter

theorem asSlice_state (C : Ctx) (hC : C.Valid) (dangling k f b cap : Nat) (r : Rng) (hr : InBuf C r)
    (h : f + b ≤ 2 ^ k) :
    asSlice C dangling id (state rawL (rawR C) k f b cap (raw C r)) = .ok
      ⟨if f + b = 2 ^ k ∨ C.size = 0 then dangling else C.base + cut k f r * C.size,
        cut k (2 ^ k - b) r - cut k f r⟩ := by
  have hlen : (state rawL (rawR C) k f b cap (raw C r)).len (m := Except Fault) = .ok (2 ^ k - f - b) :=
    len_eq _ (by simp [state]; omega)
  unfold asSlice
  rw [hlen, bind_ok]
  by_cases hfb : f + b = 2 ^ k
  · rw [if_pos (by omega), if_pos (.inl hfb), show 2 ^ k - b = f by omega, Nat.sub_self]; rfl
  · rw [if_neg (by omega)]
    have ht := pend_tiles k f b r h
    have hmono := cut_mono k r (by omega : f ≤ 2 ^ k - b)
    have hb2 := cut_bounds k (2 ^ k - b) r
    have hbuf : r.off + r.len ≤ C.cnt := hr
    simp only [state, raw_pend C k f b r hr]
    by_cases hz : C.size = 0
    · rw [if_pos hz, if_pos (.inr hz)]
      have hC2 := hC.cntU
      have := foldlM_sum C (pend Rng.left Rng.right k f b r) 0 (by rw [ht.sum]; omega)
      simp only [id]
      rw [this, bind_ok, ht.sum, Nat.zero_add]; rfl
    · rw [if_neg hz, if_neg (by rintro (h | h) <;> contradiction)]
      obtain ⟨j, x, rest, h1, -⟩ := pend_front Rng.left Rng.right k f b r (by omega)
      obtain ⟨y, hy⟩ : ∃ y, (pend Rng.left Rng.right k f b r).getLast? = some y := by
        rw [h1]; exact ⟨_, List.getLast?_cons⟩
      have hx : (pend Rng.left Rng.right k f b r).head? = some x := by rw [h1]; rfl
      have e1 := ht.head hx
      have e2 := ht.last hy
      simp only [List.head?_map, List.getLast?_map, hx, hy, Option.map_some]
      simp only [id, raw]
      rw [ptrAdd_eq C _ _ (by omega), bind_ok, e2, e1]
      have : cut k f r * C.size ≤ cut k (2 ^ k - b) r * C.size := Nat.mul_le_mul_right _ hmono
      rw [subU_eq (by omega), bind_ok,
        show C.base + cut k (2 ^ k - b) r * C.size - (C.base + cut k f r * C.size) =
          cut k (2 ^ k - b) r * C.size - cut k f r * C.size by omega,
        ← Nat.sub_mul, Nat.mul_div_cancel _ (by omega)]; rfl

end BinaryPartsIter
end Verif

namespace Verif
open Spec
theorem rparts_sub (m : Nat) (r p : Rng) (h : p ∈ rparts m r) : r.off ≤ p.off ∧ p.off + p.len ≤ r.off + r.len := by
  induction m generalizing r with
  | zero => simp [rparts, parts] at h; subst h; omega
  | succ m ih =>
    simp only [rparts, parts, List.mem_append] at h
    rcases h with h | h
    · have := ih r.left h; simp only [Rng.left] at this; omega
    · have := ih r.right h; simp only [Rng.right] at this; omega
end Verif
