import Verif.Model.BinParts
/-! Powers of two, the loops that look for them, and dyadic divisibility. -/

namespace Verif

theorem shr1 (n : Nat) : n >>> 1 = n / 2 := by rw [Nat.shiftRight_eq_div_pow]
theorem and1 (n : Nat) : n &&& 1 = n % 2 := Nat.and_one_is_mod n
theorem shl1 (n : Nat) : n <<< 1 = n * 2 := by rw [Nat.shiftLeft_eq]

namespace SliceItemsParts

theorem oddLoop_spec (n log : Nat) (hn : n ≠ 0) :
    ∃ o l, oddLoop n log = .ok (o, l) ∧ log ≤ l ∧ o % 2 = 1 ∧ n = o * 2 ^ (l - log) := by
  induction n using Nat.strongRecOn generalizing log with
  | _ n ih =>
    rw [oddLoop]
    rw [and1, shr1]
    simp only [hn, dite_false]
    by_cases h : n % 2 = 0
    · rw [if_pos h]
      obtain ⟨o, l, h1, h2, h3, h4⟩ := ih (n / 2) (by omega) (log + 1) (by omega)
      refine ⟨o, l, h1, by omega, h3, ?_⟩
      have : l - log = (l - (log + 1)) + 1 := by omega
      rw [this, Nat.pow_succ, ← Nat.mul_assoc, ← h4]; omega
    · rw [if_neg h]
      exact ⟨n, log, rfl, Nat.le_refl _, by omega, by simp⟩

theorem oddLoop_pow (m log : Nat) : oddLoop (2 ^ m) log = .ok (1, log + m) := by
  induction m generalizing log with
  | zero => rw [oddLoop]; simp [pure, Except.pure]
  | succ m ih =>
    have hp : 0 < 2 ^ m := Nat.two_pow_pos m
    rw [oddLoop, and1, shr1, dif_neg (by rw [Nat.pow_succ]; omega),
      if_pos (by rw [Nat.pow_succ]; omega)]
    rw [show 2 ^ (m + 1) / 2 = 2 ^ m by rw [Nat.pow_succ]; omega, ih]
    congr 2; omega

end SliceItemsParts

/-- `2^j` is the largest power of two dividing `x` that is at most `len`. -/
def MaxPow (x len j : Nat) : Prop :=
  2 ^ j ∣ x ∧ 2 ^ j ≤ len ∧ ∀ i, 2 ^ i ∣ x → 2 ^ i ≤ len → i ≤ j

theorem greatestPowerOf2Factor_eq {m} [Monad m] [LawfulMonad m] [MonadExceptOf Fault m]
    (n p : Nat) (hn : n ≠ 0) :
    ∃ v, greatestPowerOf2Factor (m := m) n p = pure (p * 2 ^ v) ∧ 2 ^ v ∣ n ∧
      ∀ i, 2 ^ i ∣ n → i ≤ v := by
  induction n using Nat.strongRecOn generalizing p with
  | _ n ih =>
    rw [greatestPowerOf2Factor]
    rw [and1, shr1, shl1]
    simp only [hn, reduceDIte]
    by_cases h : n % 2 = 0
    · rw [if_pos h]
      obtain ⟨v, h1, h2, h3⟩ := ih (n / 2) (by omega) (p * 2) (by omega)
      refine ⟨v + 1, ?_, ?_, ?_⟩
      · rw [h1]; congr 1; rw [Nat.pow_succ, Nat.mul_assoc, Nat.mul_comm 2]
      · obtain ⟨c, hc⟩ := h2
        exact ⟨c, by rw [Nat.pow_succ, Nat.mul_right_comm, ← hc]; omega⟩
      · intro i hi
        cases i with
        | zero => omega
        | succ i =>
          have := h3 i (by
            obtain ⟨c, hc⟩ := hi
            refine ⟨c, ?_⟩
            rw [Nat.pow_succ, Nat.mul_right_comm] at hc
            omega)
          omega
    · rw [if_neg h]
      refine ⟨0, by simp, by simp, ?_⟩
      intro i hi
      cases i with
      | zero => omega
      | succ i =>
        obtain ⟨c, hc⟩ := hi
        rw [Nat.pow_succ, Nat.mul_right_comm] at hc
        omega

theorem pow2_le_iff {i j : Nat} : 2 ^ i ≤ 2 ^ j ↔ i ≤ j := Nat.pow_le_pow_iff_right (by omega)
theorem pow2_dvd_of_le {i j : Nat} (h : i ≤ j) : 2 ^ i ∣ 2 ^ j := Nat.pow_dvd_pow 2 h

theorem shrinkLoop_eq (v len : Nat) (hl : 0 < len) :
    ∃ j, shrinkLoop (2 ^ v) len = 2 ^ j ∧ j ≤ v ∧ 2 ^ j ≤ len ∧
      ∀ i, i ≤ v → 2 ^ i ≤ len → i ≤ j := by
  induction v with
  | zero =>
    rw [shrinkLoop, dif_neg (by simp; omega)]
    exact ⟨0, rfl, by omega, by simp; omega, fun i h _ => h⟩
  | succ v ih =>
    rw [shrinkLoop]
    by_cases h : 2 ^ (v + 1) > len
    · rw [dif_pos h, shr1, show 2 ^ (v + 1) / 2 = 2 ^ v by rw [Nat.pow_succ]; omega]
      obtain ⟨j, h1, h2, h3, h4⟩ := ih
      refine ⟨j, h1, by omega, h3, fun i hi hi' => h4 i ?_ hi'⟩
      rcases Nat.lt_or_ge v i with hv | hv
      · have : i = v + 1 := by omega
        subst this; omega
      · exact hv
    · rw [dif_neg h]
      exact ⟨v + 1, rfl, Nat.le_refl _, by omega, fun i hi _ => hi⟩

theorem maxPow_exists {m} [Monad m] [LawfulMonad m] [MonadExceptOf Fault m]
    (x len : Nat) (hx : x ≠ 0) (hl : 0 < len) :
    ∃ n j, greatestPowerOf2Factor (m := m) x 1 = pure n ∧ shrinkLoop n len = 2 ^ j ∧
      MaxPow x len j := by
  obtain ⟨v, h1, h2, h3⟩ := greatestPowerOf2Factor_eq (m := m) x 1 hx
  obtain ⟨j, g1, g2, g3, g4⟩ := shrinkLoop_eq v len hl
  refine ⟨_, j, h1, by simpa using g1, Nat.dvd_trans (pow2_dvd_of_le g2) h2, g3, ?_⟩
  intro i hi hi'
  exact g4 i (h3 i hi) hi'

theorem MaxPow.unique {x len j k : Nat} (h : MaxPow x len j) (h' : MaxPow x len k) : j = k :=
  Nat.le_antisymm (h'.2.2 _ h.1 h.2.1) (h.2.2 _ h'.1 h'.2.1)

end Verif
