import Verif.Proofs.Ranges
/-! `SliceItemsParts`: the bit walks compute cut positions. -/

namespace Verif
open Spec

theorem and_pow_eq_zero (f k : Nat) : f &&& 2 ^ k = 0 ↔ f % 2 ^ (k + 1) < 2 ^ k := by
  have hp := Nat.two_pow_pos k
  have h1 : f &&& 2 ^ k = 0 ↔ f.testBit k = false := by
    constructor
    · intro h
      have := congrArg (fun x => x.testBit k) h
      simpa [Nat.testBit_and, Nat.testBit_two_pow_self] using this
    · intro h
      apply Nat.eq_of_testBit_eq
      intro i
      rw [Nat.testBit_and, Nat.testBit_two_pow, Nat.zero_testBit]
      by_cases hi : k = i
      · subst hi; simp [h]
      · simp [hi]
  rw [h1, Nat.testBit_eq_decide_div_mod_eq, decide_eq_false_iff_not]
  have e : f % 2 ^ (k + 1) = f % 2 ^ k + 2 ^ k * (f / 2 ^ k % 2) := by
    rw [Nat.pow_succ, Nat.mod_mul]
  have hm := Nat.mod_lt f hp
  rw [e]
  rcases Nat.mod_two_eq_zero_or_one (f / 2 ^ k) with h | h <;> rw [h] <;> simp <;> omega

theorem mod_pow_left {f k : Nat} (h : f % 2 ^ (k + 1) < 2 ^ k) : f % 2 ^ k = f % 2 ^ (k + 1) := by
  have : f % 2 ^ (k + 1) % 2 ^ k = f % 2 ^ k := Nat.mod_mod_of_dvd f (pow2_dvd_of_le (by omega))
  rw [← this, Nat.mod_eq_of_lt h]

theorem mod_pow_right {f k : Nat} (h : ¬ f % 2 ^ (k + 1) < 2 ^ k) : f % 2 ^ k = f % 2 ^ (k + 1) - 2 ^ k := by
  have h1 : f % 2 ^ (k + 1) % 2 ^ k = f % 2 ^ k := Nat.mod_mod_of_dvd f (pow2_dvd_of_le (by omega))
  have hp := Nat.two_pow_pos k
  have hlt := Nat.mod_lt f (Nat.two_pow_pos (k + 1))
  rw [Nat.pow_succ] at hlt
  rw [← h1, Nat.mod_eq_sub_mod (by omega), Nat.mod_eq_of_lt]
  rw [Nat.pow_succ] at *; omega

theorem mask_shr (k : Nat) : 2 ^ (k + 1) >>> 1 = 2 ^ k := by
  rw [shr1, Nat.pow_succ]; omega

namespace SliceItemsParts

theorem rightPtr_eq (C : Ctx) (r : Rng) (h : InBuf C r) :
    rightPtr C (C.base + r.off * C.size) r.len = .ok (C.base + r.right.off * C.size) := by
  have hb : r.off + r.len ≤ C.cnt := h
  unfold rightPtr
  rw [shr1]
  by_cases hz : C.size = 0
  · simp [hz, pure, Except.pure]
  · rw [if_neg hz, ptrAdd_eq _ _ _ (by omega)]; rfl

theorem nextLoop_eq (C : Ctx) (k f : Nat) (r : Rng) (h : InBuf C r) :
    ∃ p, (rparts k r)[f % 2 ^ k]? = some p ∧
      nextLoop C f (2 ^ k >>> 1) (C.base + r.off * C.size) r.len = .ok (enc C p) := by
  induction k generalizing r with
  | zero =>
    refine ⟨r, by simp [Nat.mod_one, parts], ?_⟩
    rw [nextLoop]; rfl
  | succ k ih =>
    have hp := Nat.two_pow_pos k
    have hb : r.off + r.len ≤ C.cnt := h
    rw [mask_shr, nextLoop, dif_pos (by omega)]
    by_cases hf : f % 2 ^ (k + 1) < 2 ^ k
    · obtain ⟨p, h1, h2⟩ := ih r.left h.left
      rw [if_pos ((and_pow_eq_zero f k).2 hf), shr1 r.len]
      refine ⟨p, ?_, h2⟩
      rw [rparts, parts, List.getElem?_append_left (by rw [parts_length]; exact hf), ← mod_pow_left hf]
      exact h1
    · obtain ⟨p, h1, h2⟩ := ih r.right h.right
      rw [if_neg (fun h => hf ((and_pow_eq_zero f k).1 h)), shr1 r.len]
      refine ⟨p, ?_, ?_⟩
      · rw [rparts, parts, List.getElem?_append_right (by rw [parts_length]; omega), parts_length, ← mod_pow_right hf]
        exact h1
      · rw [rightPtr_eq C r h, bind_ok, subU_eq (by omega), bind_ok]
        exact h2

theorem nextBackLoop_eq (C : Ctx) (k b : Nat) (r : Rng) (h : InBuf C r) :
    ∃ p, (parts Rng.right Rng.left k r)[b % 2 ^ k]? = some p ∧
      nextBackLoop C b (2 ^ k >>> 1) (C.base + r.off * C.size) r.len = .ok (enc C p) := by
  induction k generalizing r with
  | zero =>
    refine ⟨r, by simp [Nat.mod_one, parts], ?_⟩
    rw [nextBackLoop]; rfl
  | succ k ih =>
    have hp := Nat.two_pow_pos k
    have hb : r.off + r.len ≤ C.cnt := h
    rw [mask_shr, nextBackLoop, dif_pos (by omega)]
    by_cases hf : b % 2 ^ (k + 1) < 2 ^ k
    · obtain ⟨p, h1, h2⟩ := ih r.right h.right
      rw [if_pos ((and_pow_eq_zero b k).2 hf), shr1 r.len]
      refine ⟨p, ?_, ?_⟩
      · rw [parts, List.getElem?_append_left (by rw [parts_length]; exact hf), ← mod_pow_left hf]
        exact h1
      · rw [rightPtr_eq C r h, bind_ok, subU_eq (by omega), bind_ok]
        exact h2
    · obtain ⟨p, h1, h2⟩ := ih r.left h.left
      rw [if_neg (fun h => hf ((and_pow_eq_zero b k).1 h)), shr1 r.len]
      refine ⟨p, ?_, h2⟩
      rw [parts, List.getElem?_append_right (by rw [parts_length]; omega), parts_length, ← mod_pow_right hf]
      exact h1

theorem loc_add (C : Ctx) (hC : C.Valid) (o a n : Nat) (ho : o ≤ a) (h : a + n ≤ C.cnt) :
    PtrOrIdxRange.add C (loc C o a) n = .ok (loc C o (a + n)) := by
  unfold PtrOrIdxRange.add loc
  by_cases hz : C.size = 0
  · have := hC.cntU
    simp only [hz, if_true]
    rw [addU_eq (by omega)]; congr 1; omega
  · simp only [hz, if_false]
    exact ptrAdd_eq C a n h

theorem loc_sub (C : Ctx) (o a n : Nat) (ho : o + n ≤ a) (h : a ≤ C.cnt) :
    PtrOrIdxRange.sub C (loc C o a) n = .ok (loc C o (a - n)) := by
  unfold PtrOrIdxRange.sub loc
  by_cases hz : C.size = 0
  · simp only [hz, if_true]
    rw [subU_eq (by omega)]; congr 1; omega
  · simp only [hz, if_false]
    exact ptrSub_eq C a n h (by omega)

theorem loc_len (C : Ctx) (o a e : Nat) (ho : o ≤ a) (h : a ≤ e) :
    PtrOrIdxRange.len C ⟨loc C o a, loc C o e⟩ = .ok (e - a) := by
  unfold PtrOrIdxRange.len loc
  by_cases hz : C.size = 0
  · simp only [hz, if_true]
    rw [subU_eq (by omega)]; congr 1; omega
  · have : a * C.size ≤ e * C.size := Nat.mul_le_mul_right _ h
    simp only [hz, if_false]
    rw [subU_eq (by omega), bind_ok]
    simp only [pure, Except.pure]
    rw [show C.base + e * C.size - (C.base + a * C.size) = e * C.size - a * C.size by omega,
      ← Nat.sub_mul, Nat.mul_div_cancel _ (by omega)]

theorem withPtrAndLen_eq (C : Ctx) (r : Rng) (h : InBuf C r) :
    PtrOrIdxRange.withPtrAndLen C (C.base + r.off * C.size) r.len =
      .ok ⟨loc C r.off r.off, loc C r.off (r.off + r.len)⟩ := by
  unfold PtrOrIdxRange.withPtrAndLen loc
  by_cases hz : C.size = 0
  · simp [hz, pure, Except.pure]
  · simp only [hz, if_false]
    rw [ptrAdd_eq _ _ _ h]; rfl

theorem startLoop_eq (C : Ctx) (hC : C.Valid) (o k f : Nat) (r : Rng) (h : InBuf C r) (ho : o ≤ r.off) :
    startLoop C f (2 ^ k >>> 1) (loc C o r.off) r.len = .ok (loc C o (cut k (f % 2 ^ k) r)) := by
  induction k generalizing r with
  | zero => rw [startLoop]; simp [Nat.mod_one, cut, pure, Except.pure]
  | succ k ih =>
    have hp := Nat.two_pow_pos k
    have hb : r.off + r.len ≤ C.cnt := h
    rw [mask_shr, startLoop, dif_pos (by omega)]
    by_cases hf : f % 2 ^ (k + 1) < 2 ^ k
    · rw [if_pos ((and_pow_eq_zero f k).2 hf), shr1 r.len, cut_left _ _ _ (by omega), ← mod_pow_left hf]
      exact ih r.left h.left ho
    · rw [if_neg (fun h => hf ((and_pow_eq_zero f k).1 h)), shr1 r.len, cut_right _ _ _ (by omega), ← mod_pow_right hf,
        loc_add C hC o _ _ ho (by omega), bind_ok, subU_eq (by omega), bind_ok]
      exact ih r.right h.right (by simp only [Rng.right]; omega)

theorem stopLoop_eq (C : Ctx) (o k b : Nat) (r : Rng) (h : InBuf C r) (ho : o ≤ r.off) :
    stopLoop C b (2 ^ k >>> 1) (loc C o (r.off + r.len)) r.len =
      .ok (loc C o (cut k (2 ^ k - b % 2 ^ k) r)) := by
  induction k generalizing r with
  | zero => rw [stopLoop]; simp [Nat.mod_one, cut, pure, Except.pure]
  | succ k ih =>
    have hp := Nat.two_pow_pos k
    have hb : r.off + r.len ≤ C.cnt := h
    have hp1 : 2 ^ (k + 1) = 2 ^ k + 2 ^ k := by rw [Nat.pow_succ]; omega
    rw [mask_shr, stopLoop, dif_pos (by omega)]
    by_cases hf : b % 2 ^ (k + 1) < 2 ^ k
    · rw [if_pos ((and_pow_eq_zero b k).2 hf), shr1 r.len, cut_right _ _ _ (by omega), subU_eq (by omega), bind_ok]
      have := ih r.right h.right (by simp only [Rng.right]; omega)
      rw [mod_pow_left hf] at this
      rw [show 2 ^ (k + 1) - b % 2 ^ (k + 1) - 2 ^ k = 2 ^ k - b % 2 ^ (k + 1) by omega]
      simp only [Rng.right] at this ⊢
      rw [show r.off + r.len / 2 + (r.len - r.len / 2) = r.off + r.len by omega] at this
      exact this
    · rw [if_neg (fun h => hf ((and_pow_eq_zero b k).1 h)), shr1 r.len, cut_left _ _ _ (by omega), subU_eq (by omega), bind_ok,
        loc_sub C o _ _ (by omega) (by omega), bind_ok]
      have := ih r.left h.left ho
      rw [mod_pow_right hf] at this
      have hlt := Nat.mod_lt b (Nat.two_pow_pos (k + 1))
      rw [show 2 ^ (k + 1) - b % 2 ^ (k + 1) = 2 ^ k - (b % 2 ^ (k + 1) - 2 ^ k) by omega]
      simp only [Rng.left] at this ⊢
      rw [show r.off + r.len - (r.len - r.len / 2) = r.off + r.len / 2 by omega]
      exact this

/-- The unique parts iterator over the `2^k` parts of `r`, after `f` and `b` calls. -/
def pstate (C : Ctx) (k f b : Nat) (r : Rng) : SliceItemsParts :=
  ⟨C.base + r.off * C.size, r.len, 2 ^ k, f, b⟩

theorem len_pstate (C : Ctx) (k f b : Nat) (r : Rng) (h : f + b ≤ 2 ^ k) :
    (pstate C k f b r).len = .ok (2 ^ k - f - b) := by
  unfold len pstate
  simp only
  rw [subU_eq (by omega), bind_ok, subU_eq (by omega)]

theorem asSlice_pstate (C : Ctx) (hC : C.Valid) (dangling k f b : Nat) (r : Rng) (hr : InBuf C r)
    (h : f + b ≤ 2 ^ k) :
    asSlice C dangling (pstate C k f b r) = .ok
      ⟨if f + b = 2 ^ k ∨ C.size = 0 then dangling else C.base + cut k f r * C.size,
        cut k (2 ^ k - b) r - cut k f r⟩ := by
  unfold asSlice
  rw [len_pstate _ _ _ _ _ h, bind_ok]
  by_cases hfb : f + b = 2 ^ k
  · rw [if_neg (by omega), if_pos (.inl hfb), show 2 ^ k - b = f by omega, Nat.sub_self]; rfl
  · rw [if_pos (by omega)]
    simp only [pstate]
    rw [withPtrAndLen_eq C r hr, bind_ok]
    simp only
    rw [startLoop_eq C hC _ _ _ _ hr (Nat.le_refl _), bind_ok, stopLoop_eq C _ _ _ _ hr (Nat.le_refl _), bind_ok,
      Nat.mod_eq_of_lt (by omega), Nat.mod_eq_of_lt (by omega),
      loc_len C _ _ _ (cut_bounds k f r).1 (cut_mono k r (by omega)), bind_ok]
    simp only [pure, Except.pure, PtrOrIdxRange.asPtr, loc]
    by_cases hz : C.size = 0
    · simp [hz]
    · simp [hz, hfb]

theorem next_pstate (C : Ctx) (k f b : Nat) (r : Rng) (hr : InBuf C r) (hk : 2 ^ k ≤ C.umax)
    (h : f + b < 2 ^ k) :
    next C (pstate C k f b r) = .ok ((rparts k r)[f]?.map (enc C), pstate C k (f + 1) b r) := by
  unfold next
  rw [len_pstate _ _ _ _ _ (by omega), bind_ok, if_neg (by omega)]
  obtain ⟨p, h1, h2⟩ := nextLoop_eq C k f r hr
  rw [Nat.mod_eq_of_lt (by omega)] at h1
  simp only [pstate]
  rw [h2, bind_ok, addU_eq (by omega), bind_ok, h1]; rfl

theorem nextBack_pstate (C : Ctx) (k f b : Nat) (r : Rng) (hr : InBuf C r) (hk : 2 ^ k ≤ C.umax)
    (h : f + b < 2 ^ k) :
    nextBack C (pstate C k f b r) =
      .ok ((rparts k r)[2 ^ k - 1 - b]?.map (enc C), pstate C k f (b + 1) r) := by
  unfold nextBack
  rw [len_pstate _ _ _ _ _ (by omega), bind_ok, if_neg (by omega)]
  obtain ⟨p, h1, h2⟩ := nextBackLoop_eq C k b r hr
  rw [Nat.mod_eq_of_lt (by omega), parts_mirror, List.getElem?_reverse (by rw [parts_length]; omega), parts_length] at h1
  simp only [pstate]
  rw [h2, bind_ok, addU_eq (by omega), bind_ok, h1]; rfl

theorem next_pstate_done (C : Ctx) (k f b : Nat) (r : Rng) (h : f + b = 2 ^ k) :
    next C (pstate C k f b r) = .ok (none, pstate C k f b r) ∧
    nextBack C (pstate C k f b r) = .ok (none, pstate C k f b r) := by
  unfold next nextBack
  rw [len_pstate _ _ _ _ _ (by omega)]
  simp only [bind_ok]
  rw [if_pos (by omega), if_pos (by omega)]; exact ⟨rfl, rfl⟩

/-- One call on a unique parts iterator. -/
def step (C : Ctx) : End → SliceItemsParts → Except Fault (Option SliceItems × SliceItemsParts)
  | .front => next C
  | .back => nextBack C

theorem walk_pstate (C : Ctx) (k : Nat) (r : Rng) (hr : InBuf C r) (hk : 2 ^ k ≤ C.umax)
    (w : List End) (f b : Nat) (hfb : f + b ≤ 2 ^ k) :
    runWalk (step C) w (pstate C k f b r) =
        .ok ((deqRun w (win (rparts k r) f b)).1.map (Option.map (enc C)),
          pstate C k (cnts w (2 ^ k) f b).1 (cnts w (2 ^ k) f b).2 r) := by
  induction w generalizing f b with
  | nil => rfl
  | cons e w ih =>
    by_cases hlt : f + b < 2 ^ k
    · have hwl : f + b < (rparts k r).length := by rw [parts_length]; exact hlt
      cases e with
      | front =>
        have g1 := ih (f + 1) b (by omega)
        simp only [runWalk, step, next_pstate C k f b r hr hk hlt, deqRun, deqStep, win_tail, cnts, if_pos hlt]
        simp only [show runWalk (step C) w _ = _ from g1, win_head _ hwl, List.map_cons]
      | back =>
        have g1 := ih f (b + 1) (by omega)
        simp only [runWalk, step, nextBack_pstate C k f b r hr hk hlt, deqRun, deqStep, win_dropLast, cnts, if_pos hlt]
        simp only [show runWalk (step C) w _ = _ from g1, win_last _ hwl, parts_length, List.map_cons]
    · have hd := next_pstate_done C k f b r (by omega)
      have hw : win (rparts k r) f b = [] := win_done _ (by rw [parts_length]; omega)
      have g1 := ih f b hfb
      rw [hw] at g1
      cases e
      · simp only [runWalk, step, hd.1, hw, deqRun, deqStep, cnts, if_neg hlt]
        simp [g1]
      · simp only [runWalk, step, hd.2, hw, deqRun, deqStep, cnts, if_neg hlt]
        simp [g1]

theorem new_pow (C : Ctx) (k : Nat) (r : Rng) :
    new (enc C r) (2 ^ k) = .ok (pstate C k 0 0 r) := by
  have hp := Nat.two_pow_pos k
  unfold new
  simp only [show 2 ^ k ≠ 0 by omega, if_false, oddLoop_pow]
  rfl

theorem new_cases (s : SliceItems) (n : Nat) :
    ((∃ k, n = 2 ^ k) ∧ ∃ it, new s n = .ok it) ∨ ((¬ ∃ k, n = 2 ^ k) ∧ new s n = .error .panic) := by
  by_cases h : ∃ k, n = 2 ^ k
  · obtain ⟨k, rfl⟩ := h
    have hp := Nat.two_pow_pos k
    refine .inl ⟨⟨k, rfl⟩, ?_⟩
    unfold new
    simp only [show 2 ^ k ≠ 0 by omega, if_false, oddLoop_pow]
    exact ⟨_, rfl⟩
  · refine .inr ⟨h, ?_⟩
    unfold new
    by_cases hn : n = 0
    · subst hn; rfl
    · obtain ⟨o, v, h1, h2, h3, h4⟩ := oddLoop_spec n 0 hn
      simp only [hn, if_false, h1, bind, Except.bind, pure, Except.pure]
      rw [if_neg]; · rfl
      intro ho; subst ho
      exact h ⟨v, by simpa using h4⟩

end SliceItemsParts
end Verif
