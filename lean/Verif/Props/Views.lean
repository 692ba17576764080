import Verif.Props.RcRelease
import Verif.Rc.Views
/-!
# Comparison, hashing and formatting (C30)

What a handle shows is what `read` answers. The theorems say that the result of each
operation is a function of what the handles show, and which one.
-/

namespace Verif
open Spec Rc
variable {α β W : Type} {umax : Nat} {zst : Bool} {ops : List (Op α)} {s : State α}

/-! ## What the operations of `[T]` mean -/

/-- Same length and equal at every position. -/
def Pairwise2 (eq : α → β → Bool) (xs : List α) (ys : List β) : Prop :=
  xs.length = ys.length ∧ ∀ (i : Nat) x y, xs[i]? = some x → ys[i]? = some y → eq x y = true

/-- Up to position `i` there is no difference; at position `i` there is, or at least one of the two ends. -/
def FirstDiff (cmp : α → α → Option Ordering) (xs ys : List α) (o : Option Ordering) : Prop :=
  ∃ i : Nat, (∀ (j : Nat) x y, j < i → xs[j]? = some x → ys[j]? = some y → cmp x y = some .eq) ∧
    match xs[i]?, ys[i]? with
    | some x, some y => cmp x y = o ∧ o ≠ some .eq
    | none, some _ => o = some .lt ∧ xs.length = i
    | some _, none => o = some .gt ∧ ys.length = i
    | none, none => o = some .eq ∧ xs.length = i ∧ ys.length = i

/-- The items as text, separated by commas. -/
def listing (dbg : α → String) : List α → String
  | [] => ""
  | [x] => dbg x
  | x :: y :: xs => dbg x ++ ", " ++ listing dbg (y :: xs)

theorem sliceDebug_eq (dbg : α → String) (xs : List α) : sliceDebug dbg xs = "[" ++ listing dbg xs ++ "]" := by
  have key : ∀ xs : List α, ", ".intercalate (xs.map dbg) = listing dbg xs := fun xs => by
    induction xs with
    | nil => simp [listing]
    | cons x xs ih =>
      cases xs with
      | nil => simp [listing]
      | cons y xs =>
        simp only [List.map_cons] at ih ⊢
        rw [String.intercalate_cons_cons, ih, listing]
  rw [sliceDebug, key]

theorem sliceEq_go_iff {eq : α → β → Bool} : ∀ {xs : List α} {ys : List β}, xs.length = ys.length →
    (sliceEq.go eq xs ys = true ↔ ∀ (i : Nat) x y, xs[i]? = some x → ys[i]? = some y → eq x y = true)
  | [], [], _ => by simp [sliceEq.go]
  | x :: xs, y :: ys, h => by
    simp only [List.length_cons, Nat.add_right_cancel_iff] at h
    simp only [sliceEq.go]
    constructor
    · intro hh i a b h1 h2
      split at hh
      · next e =>
        cases i with
        | zero => cases h1; cases h2; exact e
        | succ i => exact (sliceEq_go_iff h).1 hh i a b h1 h2
      · cases hh
    · intro hh
      rw [if_pos (hh 0 x y rfl rfl)]
      exact (sliceEq_go_iff h).2 (fun i a b h1 h2 => hh (i + 1) a b h1 h2)
  | [], _ :: _, h => by simp at h
  | _ :: _, [], h => by simp at h

theorem sliceEq_iff {eq : α → β → Bool} {xs : List α} {ys : List β} : sliceEq eq xs ys = true ↔ Pairwise2 eq xs ys := by
  unfold sliceEq Pairwise2
  split
  · next h => simp only [Bool.false_eq_true, false_iff]; exact fun hh => absurd hh.1 h
  · next h =>
    have h : xs.length = ys.length := Classical.not_not.1 h
    rw [sliceEq_go_iff h]; exact ⟨fun q => ⟨h, q⟩, fun q => q.2⟩

theorem slicePartialCmp_spec (cmp : α → α → Option Ordering) : ∀ xs ys : List α, FirstDiff cmp xs ys (slicePartialCmp cmp xs ys)
  | [], [] => ⟨0, by simp, by simp [slicePartialCmp]⟩
  | [], _ :: _ => ⟨0, by simp, by simp [slicePartialCmp]⟩
  | _ :: _, [] => ⟨0, by simp, by simp [slicePartialCmp]⟩
  | x :: xs, y :: ys => by
    simp only [slicePartialCmp]
    split
    · next e =>
      obtain ⟨i, h1, h2⟩ := slicePartialCmp_spec cmp xs ys
      refine ⟨i + 1, ?_, ?_⟩
      · intro j a b hj ha hb
        cases j with
        | zero => cases ha; cases hb; exact e
        | succ j => exact h1 j a b (by omega) ha hb
      · simp only [List.getElem?_cons_succ, List.length_cons, Nat.add_right_cancel_iff]; exact h2
    · next hne => exact ⟨0, by simp, rfl, fun e => hne e⟩

theorem slicePartialCmp_total (cmp : α → α → Ordering) : ∀ xs ys : List α,
    slicePartialCmp (fun x y => some (cmp x y)) xs ys = some (sliceCmp cmp xs ys)
  | [], [] => rfl
  | [], _ :: _ => rfl
  | _ :: _, [] => rfl
  | x :: xs, y :: ys => by
    simp only [slicePartialCmp, sliceCmp]
    cases cmp x y
    · rfl
    · exact slicePartialCmp_total cmp xs ys
    · rfl

/-- There is one first difference. -/
theorem FirstDiff.unique {cmp : α → α → Option Ordering} {xs ys : List α} {o o' : Option Ordering} (h : FirstDiff cmp xs ys o)
    (h' : FirstDiff cmp xs ys o') : o = o' := by
  have key : ∀ {o o' : Option Ordering} {i i' : Nat}, (∀ (j : Nat) x y, j < i' → xs[j]? = some x → ys[j]? = some y → cmp x y = some .eq) →
      (match xs[i]?, ys[i]? with
        | some x, some y => cmp x y = o ∧ o ≠ some .eq
        | none, some _ => o = some .lt ∧ xs.length = i
        | some _, none => o = some .gt ∧ ys.length = i
        | none, none => o = some .eq ∧ xs.length = i ∧ ys.length = i) →
      (match xs[i']?, ys[i']? with
        | some x, some y => cmp x y = o' ∧ o' ≠ some .eq
        | none, some _ => o' = some .lt ∧ xs.length = i'
        | some _, none => o' = some .gt ∧ ys.length = i'
        | none, none => o' = some .eq ∧ xs.length = i' ∧ ys.length = i') → i' ≤ i := by
    intro o o' i i' e1 e2 e3
    apply Classical.byContradiction
    intro hlt
    cases h1 : xs[i]? with
    | none =>
      have := List.getElem?_eq_none_iff.1 h1
      have h3 : xs[i']? = none := List.getElem?_eq_none_iff.2 (by omega)
      rw [h3] at e3
      cases h4 : ys[i']? <;> rw [h4] at e3 <;> simp only at e3 <;> omega
    | some x =>
      cases h2 : ys[i]? with
      | none =>
        have := List.getElem?_eq_none_iff.1 h2
        have h3 : ys[i']? = none := List.getElem?_eq_none_iff.2 (by omega)
        rw [h3] at e3
        cases h4 : xs[i']? <;> rw [h4] at e3 <;> simp only at e3 <;> omega
      | some y =>
        have := e1 i x y (by omega) h1 h2
        rw [h1, h2] at e2
        simp only at e2
        exact e2.2 (e2.1 ▸ this)
  obtain ⟨i, a1, a2⟩ := h
  obtain ⟨i', b1, b2⟩ := h'
  have : i = i' := Nat.le_antisymm (key a1 b2 a2) (key b1 a2 b2)
  subst this
  cases h1 : xs[i]? <;> cases h2 : ys[i]? <;> rw [h1, h2] at a2 b2 <;> simp only at a2 b2
  · rw [a2.1, b2.1]
  · rw [a2.1, b2.1]
  · rw [a2.1, b2.1]
  · rw [← a2.1, ← b2.1]

/-! ## C30 -/

theorem drain_nil (n : Nat) (h : Heap α) : drain n h [] = .ok h := by cases n <;> rfl

theorem deref_of_read (h : after umax zst ops = .ok s) {k : Nat} {xs : List α} (hr : answer umax zst ops (.read k) = .ok (.items xs)) :
    deref umax s k = .ok (some xs) := by
  simp only [answer, h, bind, Except.bind, pure, Except.pure, call, exec] at hr
  simp only [deref, bind, Except.bind, pure, Except.pure]
  revert hr
  cases s.get k with
  | none => intro hr; simp only [drain_nil] at hr; cases hr
  | some x =>
    simp only
    cases handleRange umax s.h x with
    | error e => intro hr; cases hr
    | ok o =>
      cases o with
      | none => intro hr; simp only [drain_nil] at hr; cases hr
      | some q =>
        obtain ⟨b, off, len⟩ := q
        simp only
        cases readRange s.h b off len with
        | error e => intro hr; cases hr
        | ok l => intro hr; simp only [drain_nil] at hr ⊢; cases hr; rfl

/-- C30: handles are equal if and only if they show equally many items and those are equal;
where the items are and what else there is does not matter. The handles may have different
item types, and come from different programs. -/
theorem C30_eq {ops' : List (Op β)} {t : State β} {zst' : Bool} {k l : Nat} {xs : List α} {ys : List β} (eq : α → β → Bool)
    (h : after umax zst ops = .ok s) (h' : after umax zst' ops' = .ok t) (hk : answer umax zst ops (.read k) = .ok (.items xs))
    (hl : answer umax zst' ops' (.read l) = .ok (.items ys)) :
    ∃ r, eqHandles umax eq s k t l = .ok (some r) ∧ neHandles umax eq s k t l = .ok (some !r) ∧ (r = true ↔ Pairwise2 eq xs ys) := by
  refine ⟨sliceEq eq xs ys, ?_, ?_, sliceEq_iff⟩
  · simp [eqHandles, deref_of_read h hk, deref_of_read h' hl, bind, Except.bind, pure, Except.pure]
  · simp [neHandles, deref_of_read h hk, deref_of_read h' hl, bind, Except.bind, pure, Except.pure]

/-- C30: `partial_cmp` is lexicographic in the items shown. -/
theorem C30_partial_cmp {k l : Nat} {xs ys : List α} (cmp : α → α → Option Ordering) (h : after umax zst ops = .ok s)
    (hk : answer umax zst ops (.read k) = .ok (.items xs)) (hl : answer umax zst ops (.read l) = .ok (.items ys)) :
    ∃ o, partialCmpHandles umax cmp s k l = .ok (some o) ∧ ∀ o', FirstDiff cmp xs ys o' ↔ o' = o := by
  refine ⟨slicePartialCmp cmp xs ys, ?_, fun o' => ⟨fun q => q.unique (slicePartialCmp_spec ..), fun q => q ▸ slicePartialCmp_spec ..⟩⟩
  simp [partialCmpHandles, deref_of_read h hk, deref_of_read h hl, bind, Except.bind, pure, Except.pure]

/-- C30: `cmp` is lexicographic in the items shown, and agrees with `partial_cmp`. -/
theorem C30_cmp {k l : Nat} {xs ys : List α} (cmp : α → α → Ordering) (h : after umax zst ops = .ok s)
    (hk : answer umax zst ops (.read k) = .ok (.items xs)) (hl : answer umax zst ops (.read l) = .ok (.items ys)) :
    ∃ o, cmpHandles umax cmp s k l = .ok (some o) ∧ partialCmpHandles umax (fun x y => some (cmp x y)) s k l = .ok (some (some o)) ∧
      ∀ o', FirstDiff (fun x y => some (cmp x y)) xs ys (some o') ↔ o' = o := by
  refine ⟨sliceCmp cmp xs ys, ?_, ?_, ?_⟩
  · simp [cmpHandles, deref_of_read h hk, deref_of_read h hl, bind, Except.bind, pure, Except.pure]
  · simp [partialCmpHandles, deref_of_read h hk, deref_of_read h hl, bind, Except.bind, pure, Except.pure, slicePartialCmp_total]
  · intro o'
    have := slicePartialCmp_spec (fun x y => some (cmp x y)) xs ys
    rw [slicePartialCmp_total] at this
    exact ⟨fun q => Option.some.inj (q.unique this), fun q => q ▸ this⟩

/-- C30: `cmp` says equal exactly when `==` does, if that is so for the items. -/
theorem C30_cmp_eq {k l : Nat} {xs ys : List α} (eq : α → α → Bool) (cmp : α → α → Ordering) (law : ∀ x y, eq x y = true ↔ cmp x y = .eq)
    (h : after umax zst ops = .ok s)
    (hk : answer umax zst ops (.read k) = .ok (.items xs)) (hl : answer umax zst ops (.read l) = .ok (.items ys)) :
    cmpHandles umax cmp s k l = .ok (some .eq) ↔ eqHandles umax eq s k s l = .ok (some true) := by
  obtain ⟨o, o1, _, o2⟩ := C30_cmp cmp h hk hl
  obtain ⟨r, r1, _, r2⟩ := C30_eq eq h h hk hl
  rw [o1, r1]
  simp only [Except.ok.injEq, Option.some.injEq, r2]
  rw [eq_comm, ← o2]
  constructor
  · rintro ⟨i, h1, h2⟩
    cases hx : xs[i]? with
    | some x =>
      cases hy : ys[i]? <;> rw [hx, hy] at h2 <;> simp only at h2
      · cases h2.1
      · exact absurd rfl h2.2
    | none =>
      cases hy : ys[i]? with
      | some y => rw [hx, hy] at h2; cases h2.1
      | none =>
        rw [hx, hy] at h2
        obtain ⟨_, h3, h4⟩ := h2
        refine ⟨by omega, fun j x y hj hj' => (law x y).2 (Option.some.inj (h1 j x y ?_ hj hj'))⟩
        have := (List.getElem?_eq_some_iff.1 hj).1
        omega
  · rintro ⟨h1, h2⟩
    refine ⟨xs.length, fun j x y _ hx hy => congrArg some ((law x y).1 (h2 j x y hx hy)), ?_⟩
    rw [List.getElem?_eq_none (Nat.le_refl _), List.getElem?_eq_none (by omega)]
    exact ⟨rfl, rfl, h1.symm⟩

theorem flatMap_congr2 {eq : α → β → Bool} {f : α → List W} {g : β → List W} (law : ∀ x y, eq x y = true → f x = g y) :
    ∀ {xs : List α} {ys : List β}, Pairwise2 eq xs ys → xs.flatMap f = ys.flatMap g
  | [], [], _ => rfl
  | x :: xs, y :: ys, h => by
    rw [List.flatMap_cons, List.flatMap_cons, law x y (h.2 0 x y rfl rfl),
      flatMap_congr2 law ⟨by simpa using h.1, fun i a b ha hb => h.2 (i + 1) a b ha hb⟩]
  | [], _ :: _, h => by simp [Pairwise2] at h
  | _ :: _, [], h => by simp [Pairwise2] at h

/-- C30: a handle hashes like the slice of items it shows, which is what it borrows as: the length, then the items in order. -/
theorem C30_hash_borrow {k : Nat} {xs : List α} (len : Nat → W) (hash : α → List W) (h : after umax zst ops = .ok s)
    (hk : answer umax zst ops (.read k) = .ok (.items xs)) : hashHandle umax len hash s k = .ok (some (len xs.length :: xs.flatMap hash)) := by
  simp [hashHandle, sliceHash, deref_of_read h hk, bind, Except.bind, pure, Except.pure]

/-- C30: handles that are equal hash alike, if that is so for the items. -/
theorem C30_hash_eq {ops' : List (Op α)} {t : State α} {zst' : Bool} {k l : Nat} {xs ys : List α} (eq : α → α → Bool) (len : Nat → W)
    (hash : α → List W) (law : ∀ x y, eq x y = true → hash x = hash y)
    (h : after umax zst ops = .ok s) (h' : after umax zst' ops' = .ok t) (hk : answer umax zst ops (.read k) = .ok (.items xs))
    (hl : answer umax zst' ops' (.read l) = .ok (.items ys)) (he : eqHandles umax eq s k t l = .ok (some true)) :
    hashHandle umax len hash s k = hashHandle umax len hash t l := by
  obtain ⟨r, r1, _, r2⟩ := C30_eq eq h h' hk hl
  rw [r1] at he
  have hr : r = true := Option.some.inj (Except.ok.inj he)
  have hp := r2.1 hr
  rw [C30_hash_borrow len hash h hk, C30_hash_borrow len hash h' hl, hp.1, flatMap_congr2 law hp]

/-- C30: the `Debug` output of a slice is that of the items it shows; that of an item iterator
is determined by the items left; that of a parts iterator by these and the number of parts left. -/
theorem C30_debug {k : Nat} {x : Handle} {xs : List α} (dbg : α → String) (h : after umax zst ops = .ok s) (hx : s.get k = some x)
    (hk : answer umax zst ops (.read k) = .ok (.items xs)) :
    ∃ d, debugHandle umax dbg s k = .ok (some d) ∧
      ((∀ r, x ≠ .iter r) → (∀ b al it, x ≠ .parts b al it) → d = "[" ++ listing dbg xs ++ "]") ∧
      (∀ r, x = .iter r → d = "RcSliceMutIter(" ++ ("[" ++ listing dbg xs ++ "]") ++ ")") ∧
      (∀ b al it, x = .parts b al it → ∃ n, it.len = .ok n ∧
        d = "RcSliceMutParts { remaining_parts: " ++ toString n ++ ", remaining_items: " ++ ("[" ++ listing dbg xs ++ "]") ++ " }") := by
  have R := Rel.of_after h
  obtain ⟨y, hr⟩ : ∃ y, HandRel umax s.h.sk x y := by
    rcases R.at_ k with ⟨e, _⟩ | ⟨x', y, e1, _, hr⟩
    · rw [hx] at e; cases e
    · rw [hx] at e1; cases e1; exact ⟨y, hr⟩
  simp only [debugHandle, deref_of_read h hk, hx, bind, Except.bind, pure, Except.pure, sliceDebug_eq]
  cases hr with
  | shared | weak | weakNone | uniq =>
    exact ⟨_, rfl, fun _ _ => rfl, (fun r e => by cases e), (fun b al it e => by cases e)⟩
  | iter r _ => exact ⟨_, rfl, fun e => absurd rfl (e _), fun r e => rfl, (fun b al it e => by cases e)⟩
  | parts b al m f c q h1 h2 h3 =>
    have e := SliceItemsParts.len_pstate (posCtx umax umax) m f c q h1
    simp only [noFault, e]
    exact ⟨_, rfl, fun _ e => absurd rfl (e _ _ _), (fun r e => by cases e), (fun b al it e' => by cases e'; exact ⟨_, e, rfl⟩)⟩

/-- Two handles with the same items: one is the right half of a shared slice whose other half has
been taken over, the other a fresh unique slice. They are equal and hash alike. -/
def views : List (Op Nat) := [.rcNew [1, 2, 7, 8], .cloneSide .R 0, .splitOff .L 0, .intoMut 2, .mutNew [7, 8], .mutNew [7, 9], .intoIter 4, .next .front 4]

example : answer 100 false views (.read 1) = .ok (.items [7, 8]) ∧ answer 100 false views (.read 3) = .ok (.items [7, 8]) ∧
    answer 100 false views (.read 4) = .ok (.items [9]) ∧
    ((after 100 false views).bind fun s => eqHandles 100 (· == ·) s 1 s 3) = .ok (some true) ∧
    ((after 100 false views).bind fun s => eqHandles 100 (· == ·) s 1 s 2) = .ok (some false) ∧
    ((after 100 false views).bind fun s => cmpHandles 100 compare s 1 2) = .ok (some .gt) ∧
    ((after 100 false views).bind fun s => hashHandle 100 id (fun x => [x]) s 3) = .ok (some [2, 7, 8]) :=
  ⟨rfl, rfl, rfl, rfl, rfl, rfl, rfl⟩

end Verif
