import Verif.Arc.Bounds
import Verif.Rc.Proofs.Exact
/-!
# Counting the subslices that need memory of their own
-/

namespace Verif.Arc
open Verif.Spec (Side Rng)
open Verif.Rc

/-- A sequence of halvings none of which leaves the range as it is. -/
def Proper (r : Rng) : List Side → Prop
  | [] => True
  | s :: p => Proper r p ∧ ¬ sameNode (r.at p).len s = true

theorem at_snoc (r : Rng) (s : Side) (p : List Side) : r.at (p ++ [s]) = (r.half s).at p := by
  induction p with
  | nil => rfl
  | cons t p ih => simp only [List.cons_append, Rng.at, ih]

theorem Proper.snoc {r : Rng} {s : Side} {p : List Side} (h : Proper r (p ++ [s])) : ¬ sameNode r.len s = true ∧ Proper (r.half s) p := by
  induction p with
  | nil => exact ⟨h.2, trivial⟩
  | cons t p ih =>
    have h1 := ih h.1
    refine ⟨h1.1, h1.2, ?_⟩
    have h2 : ¬ sameNode (r.at (p ++ [s])).len t = true := h.2
    rwa [at_snoc] at h2

/-- The subslices get smaller. -/
theorem Proper.depth {r : Rng} {m : Nat} (hr : r.len ≤ 2 ^ m) {p : List Side} (h : Proper r p) :
    (p.length ≤ m ∧ (r.at p).len ≤ 2 ^ (m - p.length)) ∨ (p.length = m + 1 ∧ (r.at p).len = 0) := by
  induction p with
  | nil => exact .inl ⟨Nat.zero_le _, hr⟩
  | cons s p ih =>
    obtain ⟨h1, h2⟩ := h
    have hs : (r.at (s :: p)).len = match s with | .L => (r.at p).len / 2 | .R => (r.at p).len - (r.at p).len / 2 := by cases s <;> rfl
    rcases ih h1 with ⟨h3, h4⟩ | ⟨_, h4⟩
    · simp only [List.length_cons]
      by_cases h5 : p.length = m
      · rw [h5, Nat.sub_self] at h4
        cases s
        · exact .inr ⟨by omega, by rw [hs]; simp only; omega⟩
        · simp [sameNode] at h2; omega
      · refine .inl ⟨by omega, ?_⟩
        have h6 : m - p.length = (m - (p.length + 1)) + 1 := by omega
        rw [h6, Nat.pow_succ] at h4
        rw [hs]
        cases s <;> simp only <;> omega
    · cases s <;> simp [sameNode] at h2 <;> omega

theorem Proper.length_le {r : Rng} {m : Nat} (hr : r.len ≤ 2 ^ m) {p : List Side} (h : Proper r p) : p.length ≤ m + 1 := by
  rcases h.depth hr with h | h <;> omega

def endsIn (s : Side) (p : List Side) : Bool := p.getLast? == some s

theorem split3 (l : List (List Side)) :
    l.length = (l.filter fun p => p.isEmpty).length + (l.filter (endsIn .L)).length + (l.filter (endsIn .R)).length := by
  induction l with
  | nil => rfl
  | cons p l ih =>
    rcases List.eq_nil_or_concat p with rfl | ⟨q, s, rfl⟩
    · simp [endsIn, ih]; omega
    · cases s <;> simp [endsIn, ih] <;> omega

theorem endsIn_eq {s : Side} {p : List Side} (h : endsIn s p = true) : p = p.dropLast ++ [s] := by
  rcases List.eq_nil_or_concat p with rfl | ⟨q, t, rfl⟩
  · cases h
  · simp [endsIn] at h
    subst h; simp

/-- At most so many. -/
theorem proper_count {r : Rng} {l : List (List Side)} (hn : l.Nodup) (h : ∀ p ∈ l, Proper r p) : l.length ≤ most r.len := by
  generalize hk : r.len = k
  induction k using Nat.strongRecOn generalizing r l with
  | ind k ih =>
    subst hk
    have one : (l.filter fun p => p.isEmpty).length ≤ 1 := by
      have h1 : (l.filter fun p => p.isEmpty).Nodup := hn.sublist List.filter_sublist
      have h2 : ∀ p ∈ l.filter fun p => p.isEmpty, p = [] := fun p hp => by simpa using (List.mem_filter.1 hp).2
      match hl : l.filter (fun p => p.isEmpty) with
      | [] => rw [hl]; simp
      | [_] => rw [hl]; simp
      | x :: y :: t =>
        rw [hl] at h1 h2
        have e1 := h2 x (by simp)
        have e2 := h2 y (by simp)
        subst e1; subst e2
        simp at h1
    have side : ∀ s, (l.filter (endsIn s)).length ≤ if sameNode r.len s then 0 else most (r.half s).len := by
      intro s
      split
      · next hs =>
        have : l.filter (endsIn s) = [] := List.filter_eq_nil_iff.2 fun p hp he => by
          have := endsIn_eq he
          have h3 := h p hp
          rw [this] at h3
          exact h3.snoc.1 hs
        rw [this]; simp
      · next hs =>
        have h4 := ih (r.half s).len (by
          cases s <;> simp [sameNode] at hs <;> simp only [Rng.half, Rng.left, Rng.right] <;> omega)
          (r := r.half s) (l := (l.filter (endsIn s)).map List.dropLast) ?_ ?_ rfl
        · simpa using h4
        · refine List.pairwise_map.2 ?_
          refine List.Pairwise.imp_of_mem ?_ (hn.sublist List.filter_sublist : (l.filter (endsIn s)).Nodup)
          intro a b ha hb hab he
          apply hab
          rw [endsIn_eq (List.mem_filter.1 ha).2, endsIn_eq (List.mem_filter.1 hb).2, he]
        · intro p hp
          obtain ⟨q, hq, rfl⟩ := List.mem_map.1 hp
          obtain ⟨hq, he⟩ := List.mem_filter.1 hq
          have h3 := h q hq
          rw [endsIn_eq he] at h3
          exact h3.snoc.2
    have hL := side .L
    have hR := side .R
    rw [split3 l]
    have m0 : ∀ n, n = 0 → most n = 1 := fun n h => by simp [most, h]
    have m1 : ∀ n, 0 < n → most n = 3 * n - 1 := fun n h => by simp only [most]; split <;> omega
    simp only [sameNode, Rng.half, Rng.left, Rng.right, beq_iff_eq, decide_eq_true_eq] at hL hR
    have a1 := m0 r.len
    have a2 := m1 r.len
    have b1 := m0 (r.len / 2)
    have b2 := m1 (r.len / 2)
    have c2 := m1 (r.len - r.len / 2)
    split at hL <;> split at hR <;> omega

end Verif.Arc
