import Verif.Proofs.MutParts
/-! `SliceItemsIter` under any history of calls, splits included. -/

namespace Verif
open Spec SliceItemsParts

namespace SliceItemsIter

/-- A call on a pool of iterators. A panic in `split_off_*` happens before any
change (slice_items.rs:141, 152), so the caller that catches it sees the old pool;
every other fault is an error of the whole run. -/
def poolStep (C : Ctx) (pool : List SliceItemsIter) :
    IterOp → Except Fault (Option (IterOut Nat × List SliceItemsIter))
  | .next i => match pool[i]? with
    | none => .ok none
    | some it => match next C it with
      | .error e => .error e
      | .ok (x, it') => .ok (some (.item x, pool.set i it'))
  | .nextBack i => match pool[i]? with
    | none => .ok none
    | some it => match nextBack C it with
      | .error e => .error e
      | .ok (x, it') => .ok (some (.item x, pool.set i it'))
  | .splitOffFrom i a => match pool[i]? with
    | none => .ok none
    | some it => match splitOffFrom C it a with
      | .error .panic => .ok (some (.panicked, pool))
      | .error e => .error e
      | .ok (s, it') => .ok (some (.split, pool.set i it' ++ [s]))
  | .splitOffTo i a => match pool[i]? with
    | none => .ok none
    | some it => match splitOffTo C it a with
      | .error .panic => .ok (some (.panicked, pool))
      | .error e => .error e
      | .ok (s, it') => .ok (some (.split, pool.set i it' ++ [s]))

/-- A history of calls on a pool of iterators. -/
def poolRun (C : Ctx) : List IterOp → List SliceItemsIter →
    Except Fault (List (IterOut Nat) × List SliceItemsIter)
  | [], pool => .ok ([], pool)
  | op :: ops, pool =>
    match poolStep C pool op with
    | .error e => .error e
    | .ok none => poolRun C ops pool
    | .ok (some (o, pool')) =>
      match poolRun C ops pool' with
      | .error e => .error e
      | .ok (os, p) => .ok (o :: os, p)

/-- `it` will yield exactly the positions `xs`. -/
def Rep (C : Ctx) (o : Nat) (it : SliceItemsIter) (xs : List Nat) : Prop :=
  ∃ a e, o ≤ a ∧ a ≤ e ∧ e ≤ C.cnt ∧ it = ⟨⟨loc C o a, loc C o e⟩⟩ ∧ xs = List.range' a (e - a)

theorem rep_len {C : Ctx} {o : Nat} {it : SliceItemsIter} {xs : List Nat} (h : Rep C o it xs) :
    it.len C = .ok xs.length := by
  obtain ⟨a, e, h1, h2, h3, rfl, rfl⟩ := h
  unfold len
  rw [loc_len C o a e h1 h2]; simp

theorem new_rep (C : Ctx) (r : Rng) (h : InBuf C r) :
    ∃ it, new C (enc C r) = .ok it ∧ Rep C r.off it r.items := by
  refine ⟨⟨⟨loc C r.off r.off, loc C r.off (r.off + r.len)⟩⟩, ?_, r.off, r.off + r.len, by omega, by omega, h, rfl, ?_⟩
  · unfold new enc; simp only; rw [withPtrAndLen_eq C r h]; rfl
  · simp [Rng.items]

theorem range'_tail' (a n : Nat) : (List.range' a n).tail = List.range' (a + 1) (n - 1) := by
  rw [List.tail_range']
theorem range'_dropLast' (a n : Nat) : (List.range' a n).dropLast = List.range' a (n - 1) := by
  cases n with
  | zero => rfl
  | succ n => rw [List.range'_concat]; simp

theorem next_rep {C : Ctx} (hC : C.Valid) {o : Nat} {it : SliceItemsIter} {xs : List Nat} (h : Rep C o it xs) :
    ∃ it', next C it = .ok (xs.head?.map (loc C o), it') ∧ Rep C o it' xs.tail := by
  have hl := rep_len h
  obtain ⟨a, e, h1, h2, h3, rfl, rfl⟩ := h
  unfold next
  rw [hl, bind_ok]
  simp only [List.length_range']
  by_cases hn : e - a > 0
  · rw [if_pos hn, loc_add C hC o a 1 h1 (by omega), bind_ok]
    refine ⟨_, ?_, a + 1, e, by omega, by omega, h3, rfl, ?_⟩
    · rw [List.head?_range', if_neg (by omega)]; rfl
    · rw [range'_tail']; congr 1
  · rw [if_neg hn]
    refine ⟨_, ?_, a, e, h1, h2, h3, rfl, ?_⟩
    · rw [List.head?_range', if_pos (by omega)]; rfl
    · rw [show e - a = 0 by omega]; rfl

theorem nextBack_rep {C : Ctx} {o : Nat} {it : SliceItemsIter} {xs : List Nat} (h : Rep C o it xs) :
    ∃ it', nextBack C it = .ok (xs.getLast?.map (loc C o), it') ∧ Rep C o it' xs.dropLast := by
  have hl := rep_len h
  obtain ⟨a, e, h1, h2, h3, rfl, rfl⟩ := h
  unfold nextBack
  rw [hl, bind_ok]
  simp only [List.length_range']
  by_cases hn : e - a > 0
  · rw [if_pos hn, loc_sub C o e 1 (by omega) (by omega), bind_ok]
    refine ⟨_, ?_, a, e - 1, by omega, by omega, by omega, rfl, ?_⟩
    · rw [List.getLast?_range', if_neg (by omega)]
      simp only [pure, Except.pure, Option.map_some]
      rw [show a + (e - a) - 1 = e - 1 by omega]
    · rw [range'_dropLast']; congr 1; omega
  · rw [if_neg hn]
    refine ⟨_, ?_, a, e, h1, h2, h3, rfl, ?_⟩
    · rw [List.getLast?_range', if_pos (by omega)]; rfl
    · rw [show e - a = 0 by omega]; rfl

theorem take_range'' (a n k : Nat) : (List.range' a n).take k = List.range' a (min k n) := by
  induction n generalizing a k with
  | zero => simp
  | succ n ih =>
    cases k with
    | zero => simp
    | succ k => rw [List.range'_succ, List.take_succ_cons, ih, Nat.succ_min_succ, List.range'_succ]
theorem drop_range'' (a n k : Nat) : (List.range' a n).drop k = List.range' (a + k) (n - k) := by
  rw [List.drop_range']; simp

theorem splitOffFrom_rep {C : Ctx} (hC : C.Valid) {o : Nat} {it : SliceItemsIter} {xs : List Nat}
    (h : Rep C o it xs) (at_ : Nat) :
    (xs.length < at_ ∧ splitOffFrom C it at_ = .error .panic) ∨
    (at_ ≤ xs.length ∧ ∃ s it', splitOffFrom C it at_ = .ok (s, it') ∧ Rep C o s (xs.drop at_) ∧
      Rep C o it' (xs.take at_)) := by
  have hl := rep_len h
  obtain ⟨a, e, h1, h2, h3, rfl, rfl⟩ := h
  unfold splitOffFrom
  rw [hl, bind_ok]
  simp only [List.length_range']
  by_cases hn : at_ ≤ e - a
  · refine .inr ⟨hn, _, _, ?_, ⟨a + at_, e, by omega, by omega, h3, rfl, ?_⟩, ⟨a, a + at_, by omega, by omega, by omega, rfl, ?_⟩⟩
    · rw [if_pos hn, loc_add C hC o a at_ h1 (by omega), bind_ok]; rfl
    · rw [drop_range'']; congr 1; omega
    · rw [take_range'']; congr 1; omega
  · exact .inl ⟨by omega, by rw [if_neg hn]; rfl⟩

theorem splitOffTo_rep {C : Ctx} (hC : C.Valid) {o : Nat} {it : SliceItemsIter} {xs : List Nat}
    (h : Rep C o it xs) (at_ : Nat) :
    (xs.length < at_ ∧ splitOffTo C it at_ = .error .panic) ∨
    (at_ ≤ xs.length ∧ ∃ s it', splitOffTo C it at_ = .ok (s, it') ∧ Rep C o s (xs.take at_) ∧
      Rep C o it' (xs.drop at_)) := by
  have hl := rep_len h
  obtain ⟨a, e, h1, h2, h3, rfl, rfl⟩ := h
  unfold splitOffTo
  rw [hl, bind_ok]
  simp only [List.length_range']
  by_cases hn : at_ ≤ e - a
  · refine .inr ⟨hn, _, _, ?_, ⟨a, a + at_, by omega, by omega, by omega, rfl, ?_⟩, ⟨a + at_, e, by omega, by omega, h3, rfl, ?_⟩⟩
    · rw [if_pos hn, loc_add C hC o a at_ h1 (by omega), bind_ok]; rfl
    · rw [take_range'']; congr 1; omega
    · rw [drop_range'']; congr 1; omega
  · exact .inl ⟨by omega, by rw [if_neg hn]; rfl⟩

theorem asSlice_rep {C : Ctx} {o : Nat} {it : SliceItemsIter} {xs : List Nat} (h : Rep C o it xs)
    (dangling : Nat) : ∃ p, asSlice C dangling it = .ok ⟨p, xs.length⟩ ∧
      (C.size ≠ 0 → ∀ x, xs.head? = some x → p = C.base + x * C.size) := by
  have hl := rep_len h
  obtain ⟨a, e, h1, h2, h3, rfl, rfl⟩ := h
  unfold asSlice
  unfold len at hl
  rw [hl, bind_ok]
  refine ⟨_, rfl, ?_⟩
  intro hz x hx
  rw [List.head?_range'] at hx
  split at hx
  · simp at hx
  · simp at hx; subst hx; simp [PtrOrIdxRange.asPtr, loc, hz]

/-- Two lists related element by element. -/
inductive All2 {α β : Type} (R : α → β → Prop) : List α → List β → Prop where
  | nil : All2 R [] []
  | cons {x y xs ys} : R x y → All2 R xs ys → All2 R (x :: xs) (y :: ys)

namespace All2
variable {α β : Type} {R : α → β → Prop}

theorem get {xs : List α} {ys : List β} (h : All2 R xs ys) (i : Nat) :
    (xs[i]? = none ∧ ys[i]? = none) ∨ ∃ x y, xs[i]? = some x ∧ ys[i]? = some y ∧ R x y := by
  induction h generalizing i with
  | nil => exact .inl ⟨by simp, by simp⟩
  | cons h _ ih =>
    cases i with
    | zero => exact .inr ⟨_, _, by simp, by simp, h⟩
    | succ i => simpa using ih i

theorem set {xs : List α} {ys : List β} (h : All2 R xs ys) (i : Nat) {x : α} {y : β} (hr : R x y) :
    All2 R (xs.set i x) (ys.set i y) := by
  induction h generalizing i with
  | nil => exact .nil
  | cons h h' ih =>
    cases i with
    | zero => exact .cons hr h'
    | succ i => exact .cons h (ih i)

theorem append {xs xs' : List α} {ys ys' : List β} (h : All2 R xs ys) (h' : All2 R xs' ys') :
    All2 R (xs ++ xs') (ys ++ ys') := by
  induction h with
  | nil => exact h'
  | cons a _ ih => exact .cons a ih

end All2

theorem poolRun_rep {C : Ctx} (hC : C.Valid) {o : Nat} (ops : List IterOp) {pool : List SliceItemsIter}
    {spool : List (List Nat)} (h : All2 (Rep C o) pool spool) :
    ∃ pool', poolRun C ops pool =
        .ok ((iterRun ops spool).1.map (IterOut.map (loc C o)), pool') ∧
      All2 (Rep C o) pool' (iterRun ops spool).2 := by
  induction ops generalizing pool spool with
  | nil => exact ⟨pool, rfl, h⟩
  | cons op ops ih =>
    cases op with
    | next i =>
      rcases h.get i with ⟨h1, h2⟩ | ⟨it, xs, h1, h2, h3⟩
      · simp only [poolRun, poolStep, iterRun, iterStep, h1, h2, Option.map_none]; exact ih h
      · obtain ⟨it', g1, g2⟩ := next_rep hC h3
        obtain ⟨p, k1, k2⟩ := ih (h.set i g2)
        simp only [poolRun, poolStep, iterRun, iterStep, h1, h2, Option.map_some, g1, k1]
        exact ⟨p, by simp [IterOut.map], k2⟩
    | nextBack i =>
      rcases h.get i with ⟨h1, h2⟩ | ⟨it, xs, h1, h2, h3⟩
      · simp only [poolRun, poolStep, iterRun, iterStep, h1, h2, Option.map_none]; exact ih h
      · obtain ⟨it', g1, g2⟩ := nextBack_rep h3
        obtain ⟨p, k1, k2⟩ := ih (h.set i g2)
        simp only [poolRun, poolStep, iterRun, iterStep, h1, h2, Option.map_some, g1, k1]
        exact ⟨p, by simp [IterOut.map], k2⟩
    | splitOffFrom i a =>
      rcases h.get i with ⟨h1, h2⟩ | ⟨it, xs, h1, h2, h3⟩
      · simp only [poolRun, poolStep, iterRun, iterStep, h1, h2, Option.map_none]; exact ih h
      · rcases splitOffFrom_rep hC h3 a with ⟨g0, g1⟩ | ⟨g0, s, it', g1, g2, g3⟩
        · obtain ⟨p, k1, k2⟩ := ih h
          simp only [poolRun, poolStep, iterRun, iterStep, h1, h2, Option.map_some, g1, k1]
          rw [if_neg (by omega)]
          exact ⟨p, by simp [IterOut.map], k2⟩
        · obtain ⟨p, k1, k2⟩ := ih ((h.set i g3).append (.cons g2 .nil))
          simp only [poolRun, poolStep, iterRun, iterStep, h1, h2, Option.map_some, g1, k1]
          rw [if_pos g0]
          exact ⟨p, by simp [IterOut.map], k2⟩
    | splitOffTo i a =>
      rcases h.get i with ⟨h1, h2⟩ | ⟨it, xs, h1, h2, h3⟩
      · simp only [poolRun, poolStep, iterRun, iterStep, h1, h2, Option.map_none]; exact ih h
      · rcases splitOffTo_rep hC h3 a with ⟨g0, g1⟩ | ⟨g0, s, it', g1, g2, g3⟩
        · obtain ⟨p, k1, k2⟩ := ih h
          simp only [poolRun, poolStep, iterRun, iterStep, h1, h2, Option.map_some, g1, k1]
          rw [if_neg (by omega)]
          exact ⟨p, by simp [IterOut.map], k2⟩
        · obtain ⟨p, k1, k2⟩ := ih ((h.set i g3).append (.cons g2 .nil))
          simp only [poolRun, poolStep, iterRun, iterStep, h1, h2, Option.map_some, g1, k1]
          rw [if_pos g0]
          exact ⟨p, by simp [IterOut.map], k2⟩

end SliceItemsIter

end Verif
