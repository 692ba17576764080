import Verif.Proofs.Walk
import Verif.Spec.Layout
/-! Ranges of item positions and their machine encoding; `SliceItems` and `SliceItemsParts`. -/

namespace Verif
open Spec

theorem InBuf.left {C : Ctx} {r : Rng} (h : InBuf C r) : InBuf C r.left := by
  simp only [InBuf, Rng.left] at *; omega
theorem InBuf.right {C : Ctx} {r : Rng} (h : InBuf C r) : InBuf C r.right := by
  simp only [InBuf, Rng.right] at *; omega

theorem ptrAdd_eq (C : Ctx) (a n : Nat) (h : a + n ≤ C.cnt) :
    C.ptrAdd (C.base + a * C.size) n = .ok (C.base + (a + n) * C.size) := by
  have h1 : (a + n) * C.size ≤ C.cnt * C.size := Nat.mul_le_mul_right _ h
  unfold Ctx.ptrAdd
  rw [Nat.add_mul] at *
  rw [if_pos (by omega)]
  simp [pure, Except.pure, Nat.add_assoc]

theorem ptrSub_eq (C : Ctx) (a n : Nat) (h : a ≤ C.cnt) (hn : n ≤ a) :
    C.ptrSub (C.base + a * C.size) n = .ok (C.base + (a - n) * C.size) := by
  have h1 : a * C.size ≤ C.cnt * C.size := Nat.mul_le_mul_right _ h
  have h2 : n * C.size ≤ a * C.size := Nat.mul_le_mul_right _ hn
  unfold Ctx.ptrSub
  rw [if_pos (by omega), Nat.sub_mul]
  simp only [pure, Except.pure]
  congr 1; omega

theorem subU_eq {a b : Nat} (h : b ≤ a) : (subU a b : Except Fault Nat) = .ok (a - b) := by
  unfold subU; rw [if_pos h]; rfl

theorem addU_eq {u a b : Nat} (h : a + b ≤ u) : (addU u a b : Except Fault Nat) = .ok (a + b) := by
  unfold addU; rw [if_pos h]; rfl

theorem bind_ok {α β : Type} (x : α) (f : α → Except Fault β) :
    (Except.ok x >>= f) = f x := rfl

namespace SliceItems

theorem mid_eq (C : Ctx) (r : Rng) (h : InBuf C r) :
    (enc C r).mid C = .ok (C.base + (r.off + r.len / 2) * C.size) := by
  unfold mid enc
  unfold InBuf at h
  simp only [shr1]
  by_cases hz : C.size = 0
  · simp [hz, pure, Except.pure]
  · rw [if_neg hz, ptrAdd_eq _ _ _ (by omega)]

theorem splitOffLeft_eq (C : Ctx) (r : Rng) (h : InBuf C r) :
    splitOffLeft C (enc C r) = .ok (enc C r.left, enc C r.right) := by
  unfold splitOffLeft
  rw [mid_eq C r h]
  simp only [bind_ok, rightLen, leftLen, enc, shr1]
  rw [subU_eq (by omega)]
  rfl

theorem splitOffRight_eq (C : Ctx) (r : Rng) (h : InBuf C r) :
    splitOffRight C (enc C r) = .ok (enc C r.right, enc C r.left) := by
  unfold splitOffRight
  rw [mid_eq C r h]
  simp only [bind_ok, rightLen, leftLen, enc, shr1]
  rw [subU_eq (by omega)]
  rfl

end SliceItems

/-! ### Cut positions -/

/-- Position where part number `f` of the `2^k` parts of `r` starts. -/
def cut : Nat → Nat → Rng → Nat
  | 0, f, r => if f = 0 then r.off else r.off + r.len
  | k + 1, f, r => if f ≤ 2 ^ k then cut k f r.left else cut k (f - 2 ^ k) r.right

theorem cut_zero (k : Nat) (r : Rng) : cut k 0 r = r.off := by
  induction k generalizing r with
  | zero => simp [cut]
  | succ k ih => simp [cut, ih, Rng.left]

theorem cut_full (k : Nat) (r : Rng) : cut k (2 ^ k) r = r.off + r.len := by
  induction k generalizing r with
  | zero => simp [cut]
  | succ k ih =>
    have hp := Nat.two_pow_pos k
    rw [cut, if_neg (by rw [Nat.pow_succ]; omega), show 2 ^ (k + 1) - 2 ^ k = 2 ^ k by rw [Nat.pow_succ]; omega, ih]
    simp [Rng.right]; omega

theorem cut_right (k f : Nat) (r : Rng) (h : 2 ^ k ≤ f) : cut (k + 1) f r = cut k (f - 2 ^ k) r.right := by
  by_cases h' : f = 2 ^ k
  · subst h'
    rw [cut, if_pos (by omega), cut_full, Nat.sub_self, cut_zero]; rfl
  · rw [cut, if_neg (by omega)]

theorem cut_left (k f : Nat) (r : Rng) (h : f ≤ 2 ^ k) : cut (k + 1) f r = cut k f r.left := by
  rw [cut, if_pos h]

theorem cut_bounds (k f : Nat) (r : Rng) : r.off ≤ cut k f r ∧ cut k f r ≤ r.off + r.len := by
  induction k generalizing f r with
  | zero => simp only [cut]; split <;> omega
  | succ k ih =>
    simp only [cut]; split
    · have := ih f r.left; simp only [Rng.left] at *; omega
    · have := ih (f - 2 ^ k) r.right; simp only [Rng.right] at *; omega

theorem cut_mono (k : Nat) {f g : Nat} (r : Rng) (h : f ≤ g) : cut k f r ≤ cut k g r := by
  induction k generalizing f g r with
  | zero => simp only [cut]; split <;> split <;> omega
  | succ k ih =>
    by_cases hf : f ≤ 2 ^ k
    · rw [cut_left _ _ _ hf]
      by_cases hg : g ≤ 2 ^ k
      · rw [cut_left _ _ _ hg]; exact ih r.left h
      · rw [cut_right _ _ _ (by omega)]
        have h1 := cut_bounds k f r.left
        have h2 := cut_bounds k (g - 2 ^ k) r.right
        simp only [Rng.left, Rng.right] at *; omega
    · rw [cut_right _ _ _ (by omega), cut_right _ _ _ (by omega)]; exact ih r.right (by omega)

/-- Part number `i` is the range between two consecutive cuts. -/
theorem rparts_get (k i : Nat) (r : Rng) (h : i < 2 ^ k) :
    (rparts k r)[i]? = some ⟨cut k i r, cut k (i + 1) r - cut k i r⟩ := by
  induction k generalizing i r with
  | zero =>
    simp at h; subst h
    simp only [parts, cut, rparts]; simp
  | succ k ih =>
    simp only [rparts, parts] at ih ⊢
    by_cases hi : i < 2 ^ k
    · rw [List.getElem?_append_left (by rw [parts_length]; exact hi), ih i r.left hi,
        cut_left _ _ _ (by omega), cut_left _ _ _ (by omega)]
    · have hp1 : 2 ^ (k + 1) = 2 ^ k + 2 ^ k := by rw [Nat.pow_succ]; omega
      rw [List.getElem?_append_right (by rw [parts_length]; omega), parts_length,
        ih (i - 2 ^ k) r.right (by omega), cut_right _ _ _ (by omega), cut_right _ (i + 1) _ (by omega),
        show i + 1 - 2 ^ k = i - 2 ^ k + 1 by omega]

/-! ### Tilings -/

/-- The ranges `xs` are adjacent, start at `a` and end at `e`. -/
def Tiles : List Rng → Nat → Nat → Prop
  | [], a, e => a = e
  | x :: xs, a, e => x.off = a ∧ Tiles xs (a + x.len) e

theorem Tiles.append {xs ys : List Rng} {a b c : Nat} (h : Tiles xs a b) (h' : Tiles ys b c) :
    Tiles (xs ++ ys) a c := by
  induction xs generalizing a with
  | nil => simp only [Tiles] at h; subst h; simpa using h'
  | cons x xs ih => exact ⟨h.1, ih h.2⟩

theorem Tiles.items {xs : List Rng} {a e : Nat} (h : Tiles xs a e) :
    xs.flatMap Rng.items = List.range' a (e - a) ∧ a ≤ e := by
  induction xs generalizing a with
  | nil => simp only [Tiles] at h; subst h; simp
  | cons x xs ih =>
    obtain ⟨h1, h2⟩ := h
    obtain ⟨g1, g2⟩ := ih h2
    refine ⟨?_, by omega⟩
    rw [List.flatMap_cons, g1, Rng.items, h1, List.range'_append_1]
    congr 1; omega

theorem Tiles.head {xs : List Rng} {a e : Nat} (h : Tiles xs a e) {x : Rng} (hx : xs.head? = some x) :
    x.off = a := by
  cases xs with
  | nil => simp at hx
  | cons y ys => simp at hx; subst hx; exact h.1

theorem Tiles.last {xs : List Rng} {a e : Nat} (h : Tiles xs a e) {x : Rng} (hx : xs.getLast? = some x) :
    x.off + x.len = e := by
  induction xs generalizing a with
  | nil => simp at hx
  | cons y ys ih =>
    cases ys with
    | nil => simp at hx; subst hx; obtain ⟨h1, h2⟩ := h; simp only [Tiles] at h2; omega
    | cons z zs => exact ih h.2 (by simpa using hx)

theorem Tiles.sum {xs : List Rng} {a e : Nat} (h : Tiles xs a e) : (xs.map Rng.len).sum = e - a := by
  induction xs generalizing a with
  | nil => simp only [Tiles] at h; subst h; simp
  | cons x xs ih =>
    obtain ⟨h1, h2⟩ := h
    have := ih h2
    have := (Tiles.items h2).2
    simp; omega

theorem pend_tiles (k f b : Nat) (r : Rng) (h : f + b ≤ 2 ^ k) :
    Tiles (pend Rng.left Rng.right k f b r) (cut k f r) (cut k (2 ^ k - b) r) := by
  induction k generalizing f b r with
  | zero =>
    simp only [pend, cut]
    simp at h
    by_cases h0 : f = 0 ∧ b = 0
    · obtain ⟨rfl, rfl⟩ := h0; simp [Tiles]
    · rw [if_neg h0]; simp only [Tiles]; split <;> split <;> omega
  | succ k ih =>
    have hp := Nat.two_pow_pos k
    have hp1 : 2 ^ (k + 1) = 2 ^ k + 2 ^ k := by rw [Nat.pow_succ]; omega
    rw [pend]
    by_cases h0 : f = 0 ∧ b = 0
    · obtain ⟨rfl, rfl⟩ := h0; rw [if_pos ⟨rfl, rfl⟩, cut_zero, Nat.sub_zero, cut_full]; simp [Tiles]
    · rw [if_neg h0]
      have hL := ih (min f (2 ^ k)) (b - 2 ^ k) r.left (by omega)
      have hR := ih (f - 2 ^ k) (min b (2 ^ k)) r.right (by omega)
      -- the two halves meet, possibly with one of them exhausted
      by_cases hf : f ≤ 2 ^ k
      · rw [cut_left _ _ _ hf]
        rw [show min f (2 ^ k) = f by omega] at *
        by_cases hb : b ≤ 2 ^ k
        · rw [cut_right _ _ _ (by omega)]
          rw [show b - 2 ^ k = 0 by omega] at *
          rw [show min b (2 ^ k) = b by omega, show f - 2 ^ k = 0 by omega] at *
          rw [show 2 ^ (k + 1) - b - 2 ^ k = 2 ^ k - b by omega]
          rw [Nat.sub_zero, cut_full] at hL
          rw [cut_zero] at hR
          exact hL.append hR
        · rw [cut_left _ _ _ (by omega)]
          rw [show min b (2 ^ k) = 2 ^ k by omega, show f - 2 ^ k = 0 by omega] at *
          rw [pend_full _ _ _ _ _ _ (by omega : 0 + 2 ^ k = 2 ^ k), List.append_nil,
            show 2 ^ (k + 1) - b = 2 ^ k - (b - 2 ^ k) by omega]
          exact hL
      · rw [cut_right _ _ _ (by omega), cut_right _ _ _ (by omega)]
        rw [show min f (2 ^ k) = 2 ^ k by omega, show b - 2 ^ k = 0 by omega] at *
        rw [show min b (2 ^ k) = b by omega] at *
        rw [pend_full _ _ _ _ _ _ (by omega : 2 ^ k + 0 = 2 ^ k), List.nil_append,
          show 2 ^ (k + 1) - b - 2 ^ k = 2 ^ k - b by omega]
        exact hR

theorem rparts_tiles (k : Nat) (r : Rng) : Tiles (rparts k r) r.off (r.off + r.len) := by
  induction k generalizing r with
  | zero => simp [rparts, parts, Tiles]
  | succ k ih =>
    have hL := ih r.left
    have hR := ih r.right
    simp only [Rng.left, Rng.right] at hL hR
    rw [show r.off + r.len / 2 + (r.len - r.len / 2) = r.off + r.len by omega] at hR
    exact hL.append hR

theorem drop_tiles {xs : List Rng} {a e : Nat} (h : Tiles xs a e) (f : Nat) :
    ∃ c, Tiles (xs.take f) a c ∧ Tiles (xs.drop f) c e := by
  induction xs generalizing a f with
  | nil => simp only [Tiles] at h; subst h; exact ⟨a, by simp [Tiles]⟩
  | cons x xs ih =>
    cases f with
    | zero => exact ⟨a, by simp [Tiles], h⟩
    | succ f =>
      obtain ⟨c, h1, h2⟩ := ih h.2 f
      exact ⟨c, ⟨h.1, h1⟩, h2⟩

/-- The parts still to come occupy exactly the positions between the two cuts. -/
theorem win_tiles (k f b : Nat) (r : Rng) (h : f + b ≤ 2 ^ k) :
    Tiles (win (rparts k r) f b) (cut k f r) (cut k (2 ^ k - b) r) := by
  by_cases hlt : f + b < 2 ^ k
  · obtain ⟨c, h1, h2⟩ := drop_tiles (rparts_tiles k r) f
    obtain ⟨d, h3, h4⟩ := drop_tiles h2 (2 ^ k - f - b)
    have e : win (rparts k r) f b = List.take (2 ^ k - f - b) (List.drop f (rparts k r)) := by
      rw [win, parts_length]
    rw [← e] at h3
    have hl : f + b < (rparts k r).length := by rw [parts_length]; exact hlt
    have hh := h3.head ((win_head _ hl).trans (rparts_get k f r (by omega)))
    have hla := h3.last ((win_last _ hl).trans (by rw [parts_length]; exact rparts_get k (2 ^ k - 1 - b) r (by omega)))
    have := cut_mono k r (by omega : 2 ^ k - 1 - b ≤ 2 ^ k - b)
    simp only at hh hla
    rw [show 2 ^ k - 1 - b + 1 = 2 ^ k - b by omega] at hla
    rw [← hh] at h3
    rw [show cut k (2 ^ k - b) r = d by omega]; exact h3
  · rw [win_done _ (by rw [parts_length]; omega)]
    simp only [Tiles]; congr 1; omega

end Verif
