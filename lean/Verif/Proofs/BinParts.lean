import Verif.Proofs.Pow2
import Verif.Spec.Parts
/-! The deque of `BinaryPartsIter` is the dyadic decomposition of what is left. -/

namespace Verif
open Spec

variable {S : Type}

/-- The maximal dyadic pieces of the `2^m` parts of `s` that remain when `f` parts
are gone at the front and `b` at the back. -/
def pend (l r : S → S) : Nat → Nat → Nat → S → List S
  | 0, f, b, s => if f = 0 ∧ b = 0 then [s] else []
  | m + 1, f, b, s =>
    if f = 0 ∧ b = 0 then [s]
    else pend l r m (min f (2 ^ m)) (b - 2 ^ m) (l s) ++ pend l r m (f - 2 ^ m) (min b (2 ^ m)) (r s)

/-- Right siblings passed on the way down to the leftmost descendant at depth `j`. -/
def unroll (l r : S → S) : Nat → S → List S
  | 0, _ => []
  | j + 1, x => unroll l r j (l x) ++ [r x]

def leftmost (l : S → S) : Nat → S → S
  | 0, x => x
  | j + 1, x => leftmost l j (l x)

theorem unroll_length (l r : S → S) (j : Nat) (x : S) : (unroll l r j x).length = j := by
  induction j generalizing x with
  | zero => rfl
  | succ j ih => simp [unroll, ih]

theorem pend_zero (l r : S → S) (m : Nat) (s : S) : pend l r m 0 0 s = [s] := by
  cases m <;> simp [pend]

theorem pend_full (l r : S → S) (m f b : Nat) (s : S) (h : f + b = 2 ^ m) :
    pend l r m f b s = [] := by
  induction m generalizing f b s with
  | zero => simp at h; simp [pend]; omega
  | succ m ih =>
    have hp := Nat.two_pow_pos m
    rw [Nat.pow_succ] at h
    rw [pend, if_neg (by omega), ih _ _ _ (by omega), ih _ _ _ (by omega)]; rfl

theorem pend_one (l r : S → S) (m : Nat) (s : S) : pend l r m 1 0 s = unroll l r m s := by
  induction m generalizing s with
  | zero => simp [pend, unroll]
  | succ m ih =>
    have hp := Nat.two_pow_pos m
    rw [pend, if_neg (by omega), unroll, show min 1 (2 ^ m) = 1 by omega,
      show 0 - 2 ^ m = 0 by omega, ih, show 1 - 2 ^ m = 0 by omega,
      show min 0 (2 ^ m) = 0 by omega, pend_zero]

theorem parts_length (l r : S → S) (m : Nat) (s : S) : (parts l r m s).length = 2 ^ m := by
  induction m generalizing s with
  | zero => rfl
  | succ m ih => simp [parts, ih, Nat.pow_succ]; omega

theorem parts_zero_get (l r : S → S) (m : Nat) (s : S) :
    (parts l r m s)[0]? = some (leftmost l m s) := by
  induction m generalizing s with
  | zero => rfl
  | succ m ih =>
    rw [parts, List.getElem?_append_left (by rw [parts_length]; exact Nat.two_pow_pos m), ih, leftmost]

theorem dvd_pow_sub {i k f : Nat} (hi : i ≤ k) (hf : f ≤ 2 ^ k) :
    2 ^ i ∣ 2 ^ (k + 1) - f ↔ 2 ^ i ∣ 2 ^ k - f := by
  have e : 2 ^ (k + 1) - f = (2 ^ k - f) + 2 ^ k := by rw [Nat.pow_succ]; omega
  rw [e]
  exact ⟨fun h => (Nat.dvd_add_left (pow2_dvd_of_le hi)).1 h,
    fun h => Nat.dvd_add h (pow2_dvd_of_le hi)⟩

/-- The front of the deque is a piece of `2^j` parts, where `2^j` is the number the
code computes; unrolling it leads to the next state and yields the next part. -/
theorem pend_front (l r : S → S) (m f b : Nat) (s : S) (h : f + b < 2 ^ m) :
    ∃ j x rest, pend l r m f b s = x :: rest ∧ MaxPow (2 ^ m - f) (2 ^ m - f - b) j ∧
      pend l r m (f + 1) b s = unroll l r j x ++ rest ∧
      (parts l r m s)[f]? = some (leftmost l j x) := by
  induction m generalizing f b s with
  | zero =>
    simp at h
    obtain ⟨rfl, rfl⟩ := h
    refine ⟨0, s, [], by simp [pend], ⟨by simp, by simp, ?_⟩, by simp [pend, unroll], by simp [parts, leftmost]⟩
    intro i _ hi
    simp at hi
    rcases Nat.eq_zero_or_pos i with h0 | h0
    · omega
    · have := Nat.pow_le_pow_right (n := 2) (by omega) h0
      omega
  | succ k ih =>
    have hp := Nat.two_pow_pos k
    have hp1 : 2 ^ (k + 1) = 2 ^ k + 2 ^ k := by rw [Nat.pow_succ]; omega
    by_cases h00 : f = 0 ∧ b = 0
    · obtain ⟨rfl, rfl⟩ := h00
      refine ⟨k + 1, s, [], pend_zero .., ⟨by simp, by simp, ?_⟩, ?_, ?_⟩
      · intro i _ hi; simp at hi; exact pow2_le_iff.1 hi
      · rw [Nat.zero_add, pend_one]; simp
      · exact parts_zero_get ..
    · rw [pend, if_neg h00, pend, if_neg (by omega : ¬ (f + 1 = 0 ∧ b = 0))]
      by_cases hf : f < 2 ^ k
      · -- the left half is not exhausted
        obtain ⟨j, x, rest, h1, h2, h3, h4⟩ := ih f (b - 2 ^ k) (l s) (by omega)
        refine ⟨j, x, rest ++ pend l r k (f - 2 ^ k) (min b (2 ^ k)) (r s), ?_, ?_, ?_, ?_⟩
        · rw [show min f (2 ^ k) = f by omega, h1]; rfl
        · obtain ⟨a1, a2, a3⟩ := h2
          have hj : j ≤ k := by
            apply pow2_le_iff.1
            omega
          refine ⟨(dvd_pow_sub hj (by omega)).2 a1, by omega, ?_⟩
          intro i hi hi'
          have hik : i ≤ k := by
            rcases Nat.lt_or_ge k i with hlt | hge
            · exfalso
              have h1 : 2 ^ (k + 1) ≤ 2 ^ i := pow2_le_iff.2 hlt
              omega
            · exact hge
          have hd := (dvd_pow_sub hik (by omega)).1 hi
          refine a3 i hd ?_
          by_cases hb : 2 ^ k ≤ b
          · omega
          · have := Nat.le_of_dvd (by omega) hd
            omega
        · rw [show min (f + 1) (2 ^ k) = f + 1 by omega, h3, List.append_assoc,
            show f + 1 - 2 ^ k = f - 2 ^ k by omega]
        · rw [parts, List.getElem?_append_left (by rw [parts_length]; exact hf), h4]
      · -- the left half is exhausted
        have hb : b < 2 ^ k := by omega
        obtain ⟨j, x, rest, h1, h2, h3, h4⟩ := ih (f - 2 ^ k) b (r s) (by omega)
        refine ⟨j, x, rest, ?_, ?_, ?_, ?_⟩
        · rw [show min f (2 ^ k) = 2 ^ k by omega, show b - 2 ^ k = 0 by omega,
            pend_full _ _ _ _ _ _ (by omega : 2 ^ k + 0 = 2 ^ k), show min b (2 ^ k) = b by omega, h1]; rfl
        · have e1 : 2 ^ (k + 1) - f = 2 ^ k - (f - 2 ^ k) := by omega
          have e2 : 2 ^ (k + 1) - f - b = 2 ^ k - (f - 2 ^ k) - b := by omega
          rw [e1]; exact h2
        · rw [show min (f + 1) (2 ^ k) = 2 ^ k by omega, show b - 2 ^ k = 0 by omega,
            pend_full _ _ _ _ _ _ (by omega : 2 ^ k + 0 = 2 ^ k), show min b (2 ^ k) = b by omega,
            show f + 1 - 2 ^ k = f - 2 ^ k + 1 by omega, h3]; rfl
        · rw [parts, List.getElem?_append_right (by rw [parts_length]; omega), parts_length, h4]

/-! ### Mirror images -/

theorem pend_mirror (l r : S → S) (m f b : Nat) (s : S) :
    pend l r m f b s = (pend r l m b f s).reverse := by
  induction m generalizing f b s with
  | zero => simp only [pend, And.comm]; split <;> rfl
  | succ m ih =>
    simp only [pend, And.comm (a := f = 0)]
    split
    · rfl
    · rw [List.reverse_append, ← ih, ← ih]

theorem parts_mirror (l r : S → S) (m : Nat) (s : S) :
    parts l r m s = (parts r l m s).reverse := by
  induction m generalizing s with
  | zero => rfl
  | succ m ih => rw [parts, parts, List.reverse_append, ← ih, ← ih]

/-! ### Size of the deque -/

theorem pend_length_front (l r : S → S) (m f : Nat) (s : S) (hf : 0 < f) :
    (pend l r m f 0 s).length ≤ m := by
  induction m generalizing f s with
  | zero => simp [pend]; omega
  | succ m ih =>
    have hp := Nat.two_pow_pos m
    rw [pend, if_neg (by omega), List.length_append]
    rw [show 0 - 2 ^ m = 0 by omega, show min 0 (2 ^ m) = 0 by omega]
    by_cases h : f < 2 ^ m
    · rw [show min f (2 ^ m) = f by omega, show f - 2 ^ m = 0 by omega, pend_zero]
      have := ih f (l s) hf
      simp; omega
    · rw [show min f (2 ^ m) = 2 ^ m by omega, pend_full _ _ _ _ _ _ (by omega : 2 ^ m + 0 = 2 ^ m)]
      by_cases h' : f - 2 ^ m = 0
      · rw [h', pend_zero]; simp
      · have := ih (f - 2 ^ m) (r s) (by omega)
        simp; omega

theorem pend_length_back (l r : S → S) (m b : Nat) (s : S) (hb : 0 < b) :
    (pend l r m 0 b s).length ≤ m := by
  rw [pend_mirror, List.length_reverse]; exact pend_length_front r l m b s hb

theorem pend_length_both (l r : S → S) (m f b : Nat) (s : S) (hf : 0 < f) (hb : 0 < b)
    (h : f + b ≤ 2 ^ m) : (pend l r m f b s).length ≤ 2 * m - 2 := by
  induction m generalizing f b s with
  | zero => simp [pend]; omega
  | succ m ih =>
    have hp := Nat.two_pow_pos m
    have hp1 : 2 ^ (m + 1) = 2 ^ m + 2 ^ m := by rw [Nat.pow_succ]; omega
    rw [pend, if_neg (by omega), List.length_append]
    by_cases h1 : f < 2 ^ m
    · rw [show min f (2 ^ m) = f by omega, show f - 2 ^ m = 0 by omega]
      by_cases h2 : b < 2 ^ m
      · rw [show min b (2 ^ m) = b by omega, show b - 2 ^ m = 0 by omega]
        have := pend_length_front l r m f (l s) hf
        have := pend_length_back l r m b (r s) hb
        omega
      · rw [show min b (2 ^ m) = 2 ^ m by omega, pend_full _ _ _ _ _ _ (by omega : 0 + 2 ^ m = 2 ^ m)]
        by_cases h3 : b - 2 ^ m = 0
        · rw [h3]
          have := pend_length_front l r m f (l s) hf
          simp; omega
        · have := ih f (b - 2 ^ m) (l s) hf (by omega) (by omega)
          simp; omega
    · rw [show min f (2 ^ m) = 2 ^ m by omega, show b - 2 ^ m = 0 by omega,
        show min b (2 ^ m) = b by omega, pend_full _ _ _ _ _ _ (by omega : 2 ^ m + 0 = 2 ^ m)]
      by_cases h3 : f - 2 ^ m = 0
      · rw [h3]
        have := pend_length_back l r m b (r s) hb
        simp; omega
      · have := ih (f - 2 ^ m) b (r s) (by omega) hb (by omega)
        simp; omega

/-- The capacity reserved by `BinaryPartsIter::new`. -/
def capOf (m : Nat) : Nat := if m ≤ 1 then 1 else 2 * m - 2

theorem pend_length_le (l r : S → S) (m f b : Nat) (s : S) (h : f + b ≤ 2 ^ m) :
    (pend l r m f b s).length ≤ capOf m := by
  unfold capOf
  rcases Nat.eq_zero_or_pos f with rfl | hf
  · rcases Nat.eq_zero_or_pos b with rfl | hb
    · rw [pend_zero]; simp; split <;> omega
    · have := pend_length_back l r m b s hb
      split <;> omega
  · rcases Nat.eq_zero_or_pos b with rfl | hb
    · have := pend_length_front l r m f s hf
      split <;> omega
    · have := pend_length_both l r m f b s hf hb h
      split <;> omega

/-! ### The loops -/

set_option linter.unusedSectionVars false
variable {m : Type → Type} [Monad m] [LawfulMonad m] [MonadExceptOf Fault m]

/-- A splitting operation that behaves like the pure functions `l`, `r` on the
elements satisfying `Good`. -/
structure SplitOK (Good : S → Prop) (l r : S → S) (splitL splitR : S → m (S × S)) : Prop where
  left : ∀ s, Good s → splitL s = pure (l s, r s)
  right : ∀ s, Good s → splitR s = pure (r s, l s)
  goodL : ∀ s, Good s → Good (l s)
  goodR : ∀ s, Good s → Good (r s)

theorem SplitOK.mirror {Good : S → Prop} {l r : S → S} {sl sr : S → m (S × S)}
    (h : SplitOK Good l r sl sr) : SplitOK Good r l sr sl :=
  ⟨h.right, h.left, h.goodR, h.goodL⟩

namespace BinaryPartsIter

theorem frontLoop_some {Good : S → Prop} {l r : S → S} {sl sr : S → m (S × S)}
    (hs : SplitOK Good l r sl sr) (j : Nat) (i : S) (hi : Good i) (dq : List S) (cap : Nat) :
    frontLoop sl (2 ^ j) (some i) ⟨dq, cap⟩ =
      pure (some (leftmost l j i), ⟨unroll l r j i ++ dq, if j = 0 then cap else max cap (dq.length + j)⟩) := by
  induction j generalizing i dq cap with
  | zero => rw [frontLoop]; simp [leftmost, unroll]
  | succ j ih =>
    have hp := Nat.two_pow_pos j
    rw [frontLoop, dif_neg (by rw [Nat.pow_succ]; omega), and1, if_pos (by rw [Nat.pow_succ]; omega), shr1,
      show 2 ^ (j + 1) / 2 = 2 ^ j by rw [Nat.pow_succ]; omega]
    simp only [Deque.pushFront, hs.left i hi, pure_bind]
    rw [ih _ (hs.goodL i hi)]
    simp only [leftmost, unroll, List.append_assoc, List.singleton_append]
    congr 3
    by_cases hj : j = 0
    · subst hj; simp
    · simp [hj]; omega

theorem frontLoop_none {Good : S → Prop} {l r : S → S} {sl sr : S → m (S × S)}
    (hs : SplitOK Good l r sl sr) (j : Nat) (x : S) (hx : Good x) (rest : List S) (cap : Nat) :
    frontLoop sl (2 ^ (j + 1)) none ⟨x :: rest, cap⟩ =
      pure (some (leftmost l (j + 1) x), ⟨unroll l r (j + 1) x ++ rest,
        if j = 0 then cap else max cap (rest.length + 1 + j)⟩) := by
  have hp := Nat.two_pow_pos j
  rw [frontLoop, dif_neg (by rw [Nat.pow_succ]; omega), and1, if_pos (by rw [Nat.pow_succ]; omega), shr1,
    show 2 ^ (j + 1) / 2 = 2 ^ j by rw [Nat.pow_succ]; omega]
  simp only [hs.left x hx, pure_bind]
  rw [frontLoop_some hs j _ (hs.goodL x hx)]
  simp [leftmost, unroll]

theorem frontLoop_one {sl : S → m (S × S)} (d : Deque S) : frontLoop sl 1 none d = pure (none, d) := by
  rw [frontLoop]; simp

theorem backLoop_mirror (sp : S → m (S × S)) (j : Nat) (item : Option S) (ys : List S) (cap : Nat) :
    backLoop sp (2 ^ j) item ⟨ys.reverse, cap⟩ =
      (fun (p : Option S × Deque S) => (p.1, (⟨p.2.items.reverse, p.2.cap⟩ : Deque S))) <$>
        frontLoop sp (2 ^ j) item ⟨ys, cap⟩ := by
  induction j generalizing item ys cap with
  | zero => rw [backLoop.eq_def, frontLoop.eq_def]; simp
  | succ j ih =>
    have hp := Nat.two_pow_pos j
    rw [backLoop.eq_def, frontLoop.eq_def]
    simp only [shr1, and1]
    rw [dif_neg (by rw [Nat.pow_succ]; omega), if_pos (by rw [Nat.pow_succ]; omega),
      dif_neg (by rw [Nat.pow_succ]; omega), if_pos (by rw [Nat.pow_succ]; omega),
      show 2 ^ (j + 1) / 2 = 2 ^ j by rw [Nat.pow_succ]; omega]
    cases item with
    | some i =>
      simp only [Deque.pushBack, Deque.pushFront, List.length_reverse, List.getLast?_append,
        List.getLast?_singleton, Option.some_or, map_bind]
      congr 1; funext p
      simp only [List.dropLast_append_of_ne_nil, ne_eq, List.cons_ne_self, not_false_eq_true, List.dropLast_singleton,
        List.append_nil]
      have := ih (some p.1) (p.2 :: ys) (max cap (ys.length + 1))
      simpa using this
    | none =>
      cases ys with
      | nil => simpa using ih none [] cap
      | cons y ys =>
        simp only [List.reverse_cons, List.getLast?_append, List.getLast?_singleton, Option.some_or, map_bind]
        congr 1; funext p
        have := ih (some p.1) (p.2 :: ys) cap
        simpa using this

/-- The iterator over the `2^k` parts of `s` after `f` calls of `next` and `b` of
`next_back`. -/
def state (l r : S → S) (k f b cap : Nat) (s : S) : BinaryPartsIter S :=
  ⟨2 ^ k, f, b, ⟨pend l r k f b s, cap⟩⟩

theorem len_eq (it : BinaryPartsIter S) (h : it.numYieldedFront + it.numYieldedBack ≤ it.numParts) :
    it.len (m := m) = pure (it.numParts - it.numYieldedFront - it.numYieldedBack) := by
  unfold len subU
  rw [if_pos (by omega)]
  simp only [pure_bind]
  rw [if_pos (by omega)]

theorem good_pend {Good : S → Prop} {l r : S → S} {sl sr : S → m (S × S)}
    (hs : SplitOK Good l r sl sr) (k f b : Nat) (s : S) (hg : Good s) :
    ∀ x ∈ pend l r k f b s, Good x := by
  induction k generalizing f b s with
  | zero => intro x hx; simp only [pend] at hx; split at hx <;> simp_all
  | succ k ih =>
    intro x hx
    simp only [pend] at hx
    split at hx
    · simp_all
    · rcases List.mem_append.1 hx with h | h
      · exact ih _ _ _ (hs.goodL s hg) x h
      · exact ih _ _ _ (hs.goodR s hg) x h

theorem next_eq {Good : S → Prop} {l r : S → S} {sl sr : S → m (S × S)}
    (hs : SplitOK Good l r sl sr) (k f b cap : Nat) (s : S) (hg : Good s) (umax : Nat) (debug : Bool)
    (hk : 2 ^ k ≤ umax) (hd : debug = true → capOf k ≤ cap) (hfb : f + b < 2 ^ k) :
    ∃ cap', next sl umax debug (state l r k f b cap s) =
        pure ((parts l r k s)[f]?, state l r k (f + 1) b cap' s) ∧
      cap ≤ cap' ∧ (capOf k ≤ cap → cap' = cap) := by
  obtain ⟨j, x, rest, h1, h2, h3, h4⟩ := pend_front l r k f b s hfb
  obtain ⟨n, j', g1, g2, g3⟩ := maxPow_exists (m := m) (2 ^ k - f) (2 ^ k - f - b) (by omega) (by omega)
  have hj := g3.unique h2
  subst hj
  have hx : Good x := good_pend hs k f b s hg x (by rw [h1]; simp)
  have hlen := pend_length_le l r k (f + 1) b s (by omega)
  rw [h3, List.length_append, unroll_length] at hlen
  unfold next
  rw [len_eq _ (by simp [state]; omega)]
  simp only [state, pure_bind]
  rw [if_neg (by omega), h1]
  simp only [List.length_cons, Nat.add_eq_zero_iff, Nat.succ_ne_self, and_false, Bool.and_eq_true,
    beq_iff_eq, if_false]
  rw [show subU (m := m) (2 ^ k) f = pure (2 ^ k - f) by unfold subU; rw [if_pos (by omega)]]
  simp only [pure_bind, g1, g2, h4, h3]
  cases j' with
  | zero =>
    refine ⟨cap, ?_, Nat.le_refl _, fun _ => rfl⟩
    rw [Nat.pow_zero, frontLoop_one]
    simp [leftmost, unroll, addU, show f + 1 ≤ umax by omega]
  | succ j' =>
    refine ⟨if j' = 0 then cap else max cap (rest.length + 1 + j'), ?_, ?_, ?_⟩
    · rw [frontLoop_none hs j' x hx]
      have hc : debug = true → (if j' = 0 then cap else max cap (rest.length + 1 + j')) = cap := by
        intro h; have := hd h; split
        · rfl
        · omega
      have hb : (debug && cap != (if j' = 0 then cap else max cap (rest.length + 1 + j'))) = false := by
        cases debug with
        | false => rfl
        | true => rw [hc rfl]; simp
      rw [Bool.and_eq_false_iff] at hb
      simp only [pure_bind]
      rw [if_neg (by rcases hb with hb | hb <;> simp [hb])]
      simp [addU, show f + 1 ≤ umax by omega]
    · split <;> omega
    · intro h; split
      · rfl
      · omega

/-- Swap the two ends. -/
def mirror (it : BinaryPartsIter S) : BinaryPartsIter S :=
  ⟨it.numParts, it.numYieldedBack, it.numYieldedFront, ⟨it.deque.items.reverse, it.deque.cap⟩⟩

theorem mirror_state (l r : S → S) (k f b cap : Nat) (s : S) :
    mirror (state l r k f b cap s) = state r l k b f cap s := by
  simp [mirror, state, pend_mirror l r]

theorem nextBack_eq {Good : S → Prop} {l r : S → S} {sl sr : S → m (S × S)}
    (hs : SplitOK Good l r sl sr) (k f b cap : Nat) (s : S) (hg : Good s) (umax : Nat) (debug : Bool)
    (hk : 2 ^ k ≤ umax) (hd : debug = true → capOf k ≤ cap) (hfb : f + b < 2 ^ k) :
    ∃ cap', nextBack sr umax debug (state l r k f b cap s) =
        pure ((parts l r k s)[2 ^ k - 1 - b]?, state l r k f (b + 1) cap' s) ∧
      cap ≤ cap' ∧ (capOf k ≤ cap → cap' = cap) := by
  have hs' := hs.mirror
  obtain ⟨j, x, rest, h1, h2, h3, h4⟩ := pend_front r l k b f s (by omega)
  obtain ⟨n, j', g1, g2, g3⟩ := maxPow_exists (m := m) (2 ^ k - b) (2 ^ k - b - f) (by omega) (by omega)
  have hj := g3.unique h2
  subst hj
  have hx : Good x := good_pend hs' k b f s hg x (by rw [h1]; simp)
  have hlen := pend_length_le r l k (b + 1) f s (by omega)
  rw [h3, List.length_append, unroll_length] at hlen
  have h4' : (parts l r k s)[2 ^ k - 1 - b]? = some (leftmost r j' x) := by
    rw [parts_mirror, List.getElem?_reverse (by rw [parts_length]; omega), parts_length, ← h4]
    congr 1; omega
  unfold nextBack
  rw [len_eq _ (by simp [state]; omega)]
  simp only [state, pure_bind]
  rw [if_neg (by omega), pend_mirror l r k f b, h1, pend_mirror l r k f (b + 1)]
  simp only [List.length_reverse, List.length_cons, Nat.add_eq_zero_iff, Nat.succ_ne_self, and_false, Bool.and_eq_true,
    beq_iff_eq, if_false]
  rw [show subU (m := m) (2 ^ k) b = pure (2 ^ k - b) by unfold subU; rw [if_pos (by omega)]]
  rw [show 2 ^ k - f - b = 2 ^ k - b - f by omega]
  simp only [pure_bind, g1, g2, h4', h3, backLoop_mirror]
  cases j' with
  | zero =>
    refine ⟨cap, ?_, Nat.le_refl _, fun _ => rfl⟩
    rw [Nat.pow_zero, frontLoop_one]
    simp [leftmost, unroll, addU, show b + 1 ≤ umax by omega]
  | succ j' =>
    refine ⟨if j' = 0 then cap else max cap (rest.length + 1 + j'), ?_, ?_, ?_⟩
    · rw [frontLoop_none hs' j' x hx]
      have hc : debug = true → (if j' = 0 then cap else max cap (rest.length + 1 + j')) = cap := by
        intro h; have := hd h; split
        · rfl
        · omega
      have hb : (debug && cap != (if j' = 0 then cap else max cap (rest.length + 1 + j'))) = false := by
        cases debug with
        | false => rfl
        | true => rw [hc rfl]; simp
      rw [Bool.and_eq_false_iff] at hb
      simp only [pure_bind, map_pure]
      rw [if_neg (by rcases hb with hb | hb <;> simp [hb])]
      simp [addU, show b + 1 ≤ umax by omega]
    · split <;> omega
    · intro h; split
      · rfl
      · omega

/-- Both ends exhausted: every further call returns `None` and changes nothing. -/
theorem next_done {sp : S → m (S × S)} (umax : Nat) (debug : Bool) (it : BinaryPartsIter S)
    (h : it.numYieldedFront + it.numYieldedBack = it.numParts) :
    next sp umax debug it = pure (none, it) ∧ nextBack sp umax debug it = pure (none, it) := by
  unfold next nextBack
  rw [len_eq _ (by omega)]
  simp only [pure_bind]
  rw [if_pos (by omega), if_pos (by omega)]
  exact ⟨rfl, rfl⟩

theorem new_pow (s : S) (k : Nat) (l r : S → S) :
    new s (2 ^ k) = .ok (state l r k 0 0 (capOf k) s) := by
  have hp := Nat.two_pow_pos k
  unfold new
  simp only [show 2 ^ k ≠ 0 by omega, if_false, SliceItemsParts.oddLoop_pow]
  simp only [bind, Except.bind, if_true, pure, Except.pure, state, pend_zero, capOf, shl1]
  simp [Nat.mul_comm]

theorem new_cases (s : S) (n : Nat) :
    ((∃ k, n = 2 ^ k) ∧ ∃ it, new s n = .ok it) ∨ ((¬ ∃ k, n = 2 ^ k) ∧ new s n = .error .panic) := by
  by_cases h : ∃ k, n = 2 ^ k
  · obtain ⟨k, rfl⟩ := h
    exact .inl ⟨⟨k, rfl⟩, _, new_pow s k id id⟩
  · refine .inr ⟨h, ?_⟩
    unfold new
    by_cases hn : n = 0
    · subst hn; rfl
    · obtain ⟨o, v, h1, h2, h3, h4⟩ := SliceItemsParts.oddLoop_spec n 0 hn
      simp only [hn, if_false, h1, bind, Except.bind, pure, Except.pure]
      rw [if_neg]; · rfl
      intro ho; subst ho
      exact h ⟨v, by simpa using h4⟩

end BinaryPartsIter

end Verif
