import Verif.Proofs.ItemsIter
import Verif.Proofs.SharedParts
/-!
# Properties C01 - C13: splitting and iterating

Specification: `Verif.Spec.Parts`, `Verif.Spec.Layout`. Model: `Verif.Model.*`.
`C` describes the item layout (zero-sized items included: `C.size = 0`) and the
buffer; `InBuf C r` says the range `r` of item positions lies inside it.
-/

namespace Verif
open Spec

/-- A buffer of 10 items of 8 bytes, used to show that hypotheses can be met. -/
def exC : Ctx := ⟨8, 2 ^ 64 - 1, 4096, 10⟩
/-- Zero-sized items. -/
def exZ : Ctx := ⟨0, 2 ^ 64 - 1, 1, 10⟩
theorem exC_valid : exC.Valid := ⟨by decide, by decide⟩
theorem exZ_valid : exZ.Valid := ⟨by decide, by decide⟩
/-- Items 1..7 of the buffer. -/
def exR : Rng := ⟨1, 7⟩

/-! ## C01 -/

/-- C01, unique slices (`RcSliceMut`, `ArcSliceMut`). -/
theorem C01_unique_halving (C : Ctx) (off len : Nat) (h : off + len ≤ C.cnt) :
    let s : SliceItems := ⟨C.base + off * C.size, len⟩
    let l : SliceItems := ⟨C.base + off * C.size, len / 2⟩
    let r : SliceItems := ⟨C.base + (off + len / 2) * C.size, len - len / 2⟩
    s.splitOffLeft C = .ok (l, r) ∧ s.splitOffRight C = .ok (r, l) ∧
      List.range' off (len / 2) ++ List.range' (off + len / 2) (len - len / 2) = List.range' off len ∧
      l.ptr + l.len * C.size = r.ptr := by
  refine ⟨SliceItems.splitOffLeft_eq C ⟨off, len⟩ h, SliceItems.splitOffRight_eq C ⟨off, len⟩ h, ?_, ?_⟩
  · rw [List.range'_append_1]; congr 1; omega
  · simp only [Nat.add_mul]; omega

/-- C01, shared slices (`RcSlice`, `ArcSlice`): `clone_left`/`clone_right` and `split_off_*`. -/
theorem C01_shared_halving (C : Ctx) (off len : Nat) (h : off + len ≤ C.cnt) :
    let s : RawSlice := ⟨C.base + off * C.size, len⟩
    let l : RawSlice := ⟨C.base + off * C.size, len / 2⟩
    let r : RawSlice := ⟨C.base + (off + len / 2) * C.size, len - len / 2⟩
    s.cloneLeft = l ∧ s.cloneRight C = .ok r ∧
      s.splitOffLeft C = .ok (l, r) ∧ s.splitOffRight C = .ok (r, l) := by
  have h1 := cloneLeft_eq C ⟨off, len⟩
  have h2 := cloneRight_eq C ⟨off, len⟩ h
  simp only [raw, Rng.left, Rng.right] at h1 h2
  refine ⟨h1, h2, ?_, ?_⟩
  · unfold RawSlice.splitOffLeft; rw [h1, h2]; rfl
  · unfold RawSlice.splitOffRight; rw [h1, h2]; rfl

example : SliceItems.splitOffLeft exC ⟨4096 + 1 * 8, 7⟩ = .ok (⟨4104, 3⟩, ⟨4128, 4⟩) :=
  (C01_unique_halving exC 1 7 (by decide)).1
example : RawSlice.splitOffRight exZ ⟨1, 7⟩ = .ok (⟨1, 4⟩, ⟨1, 3⟩) :=
  (C01_shared_halving exZ 1 7 (by decide)).2.2.2

/-! ## C02 -/

/-- C02, shared: the call panics exactly on non-powers of two (0 included), and
otherwise returns an iterator. -/
theorem C02_shared {S : Type} (s : S) (n : Nat) :
    (BinaryPartsIter.new s n = .error .panic ↔ ¬ ∃ m, n = 2 ^ m) ∧
    ((∃ it, BinaryPartsIter.new s n = .ok it) ↔ ∃ m, n = 2 ^ m) := by
  rcases BinaryPartsIter.new_cases s n with ⟨h, it, e⟩ | ⟨h, e⟩ <;> simp [h, e]

/-- C02, unique. -/
theorem C02_unique (s : SliceItems) (n : Nat) :
    (SliceItemsParts.new s n = .error .panic ↔ ¬ ∃ m, n = 2 ^ m) ∧
    ((∃ it, SliceItemsParts.new s n = .ok it) ↔ ∃ m, n = 2 ^ m) := by
  rcases SliceItemsParts.new_cases s n with ⟨h, it, e⟩ | ⟨h, e⟩ <;> simp [h, e]

example : ∃ it, SliceItemsParts.new ⟨4096, 7⟩ 1024 = .ok it := (C02_unique _ _).2.2 ⟨10, rfl⟩
example : BinaryPartsIter.new (S := Nat) 5 0 = .error .panic :=
  (C02_shared _ _).1.2 fun ⟨m, h⟩ => absurd h.symm (Nat.ne_of_gt (Nat.two_pow_pos m))

/-! ## C03, C04, C05 -/

/-- `parts` lists the parts by position: part `i` follows the binary digits of `i`. -/
theorem parts_digit {S : Type} (l r : S → S) (m i : Nat) (s : S) (h : i < 2 ^ m) :
    (parts l r m s)[i]? = some (digitPart l r m i s) := by
  induction m generalizing i s with
  | zero => simp at h; subst h; simp [parts, digitPart]
  | succ m ih =>
    have hp := Nat.two_pow_pos m
    have hdig : ∀ (j : Nat) (t : S) (k : Nat), k ≤ m → digitPart l r k (2 ^ m + j) t = digitPart l r k j t := by
      intro j t k hk
      induction k generalizing t with
      | zero => rfl
      | succ k ih2 =>
        simp only [digitPart]
        rw [Nat.testBit_two_pow_add_gt (by omega), ih2 _ (by omega)]
    rw [parts, digitPart]
    by_cases hi : i < 2 ^ m
    · rw [List.getElem?_append_left (by rw [parts_length]; exact hi), ih _ _ hi, Nat.testBit_lt_two_pow hi]
      simp
    · have e : i = 2 ^ m + (i - 2 ^ m) := by omega
      rw [Nat.pow_succ] at h
      rw [List.getElem?_append_right (by rw [parts_length]; omega), parts_length, ih _ _ (by omega)]
      have : i.testBit m = true := by
        rw [e, Nat.testBit_two_pow_add_eq, Nat.testBit_lt_two_pow (by omega)]; rfl
      rw [this, if_pos rfl]
      rw [e, hdig _ _ m (Nat.le_refl m)]
      congr 2
      omega

/-- C03, in the general form: for every way of splitting elements (pure or not) that
returns its two halves, `split_into_parts(s, 2^m)` followed by any walk returns
exactly what consuming the list of the `2^m` parts from both ends returns. With
`debug` the `debug_assert!`s are compiled in. -/
theorem C03_any_splitting {S : Type} {l r : S → S} {splitL splitR : S → Except Fault (S × S)}
    (hl : ∀ s, splitL s = .ok (l s, r s)) (hr : ∀ s, splitR s = .ok (r s, l s))
    (s : S) (m umax : Nat) (debug : Bool) (hm : 2 ^ m ≤ umax) (w : List End) :
    ∃ it it', BinaryPartsIter.new s (2 ^ m) = .ok it ∧
      runWalk (BinaryPartsIter.step splitL splitR umax debug) w it =
        .ok ((deqRun w (parts l r m s)).1, it') := by
  have hs : SplitOK (m := Except Fault) (fun _ => True) l r splitL splitR :=
    ⟨fun s _ => hl s, fun s _ => hr s, fun _ _ => trivial, fun _ _ => trivial⟩
  obtain ⟨c, h1, -⟩ := BinaryPartsIter.walk_state hs m s trivial umax debug hm w 0 0 (capOf m)
    (fun _ => Nat.le_refl _) (Nat.zero_le _)
  rw [win_zero] at h1
  exact ⟨_, _, BinaryPartsIter.new_pow s m l r, h1⟩

/-- C03 for `RcSlice`/`ArcSlice`: the parts yielded are the slices of the `2^m` parts
of the range, by position, under any walk. -/
theorem C03_shared_walk (C : Ctx) (r : Rng) (hr : InBuf C r) (m : Nat) (debug : Bool)
    (hm : 2 ^ m ≤ C.umax) (w : List End) :
    ∃ it it', BinaryPartsIter.new (raw C r) (2 ^ m) = .ok it ∧
      runWalk (BinaryPartsIter.step (RawSlice.splitOffLeft C) (RawSlice.splitOffRight C) C.umax debug) w it =
        .ok ((deqRun w (rparts m r)).1.map (Option.map (raw C)), it') := by
  obtain ⟨c, h1, -⟩ := BinaryPartsIter.walk_state (rawSplit C) m (raw C r) ⟨r, hr, rfl⟩ C.umax debug hm w 0 0
    (capOf m) (fun _ => Nat.le_refl _) (Nat.zero_le _)
  rw [win_zero, raw_parts C m r hr, deqRun_map] at h1
  exact ⟨_, _, BinaryPartsIter.new_pow _ m _ _, h1⟩

/-- C03, exhaustion and position, spelled out on the specification: after `f` calls to
`next` and `b` calls to `next_back`, in any order, with `f + b < 2^m`, the next call to
`next` returns part `f`, `next_back` returns part `2^m - 1 - b`; once `f + b ≥ 2^m`
every call returns `None`. -/
theorem C03_positions {S : Type} (l r : S → S) (s : S) (m : Nat) (w : List End) :
    (w.length < 2 ^ m →
      (deqStep .front (deqRun w (parts l r m s)).2).1 = some (digitPart l r m (w.count .front) s) ∧
      (deqStep .back (deqRun w (parts l r m s)).2).1 = some (digitPart l r m (2 ^ m - 1 - w.count .back) s)) ∧
    (2 ^ m ≤ w.length → ∀ e, (deqStep e (deqRun w (parts l r m s)).2).1 = none) := by
  have hc := count_len w
  simp only [countFront, countBack] at hc
  constructor
  · intro h
    have hx := deqRun_cnts w (parts l r m s) 0 0
    rw [win_zero, cnts_eq _ _ _ _ (by rw [parts_length]; omega)] at hx
    simp only [Nat.zero_add, countFront, countBack] at hx
    rw [hx]
    have hw : w.count .front + w.count .back < (parts l r m s).length := by rw [parts_length]; omega
    simp only [deqStep]
    rw [win_head _ hw, win_last _ hw, parts_length, parts_digit _ _ _ _ _ (by omega), parts_digit _ _ _ _ _ (by omega)]
    exact ⟨rfl, rfl⟩
  · intro h e
    have hx := deqRun_cnts w (parts l r m s) 0 0
    have hf := cnts_full w (parts l r m s).length 0 0 (by rw [parts_length]; omega) (by omega)
    rw [win_zero, win_done _ (by omega)] at hx
    rw [hx]; cases e <;> rfl

/-- C03, clones: `clone()` of a shared parts iterator reached by any walk `w`, whatever
capacity the cloned deque gets, then behaves in release builds exactly like the original. -/
theorem C03_clone_release (C : Ctx) (r : Rng) (hr : InBuf C r) (m : Nat) (debug : Bool)
    (hm : 2 ^ m ≤ C.umax) (w w' : List End) (cap : Nat) :
    ∃ it it1 it2, BinaryPartsIter.new (raw C r) (2 ^ m) = .ok it ∧
      runWalk (BinaryPartsIter.step (RawSlice.splitOffLeft C) (RawSlice.splitOffRight C) C.umax debug) w it =
        .ok ((deqRun w (rparts m r)).1.map (Option.map (raw C)), it1) ∧
      runWalk (BinaryPartsIter.step (RawSlice.splitOffLeft C) (RawSlice.splitOffRight C) C.umax false) w'
        (it1.clone cap) =
        .ok ((deqRun w' (deqRun w (rparts m r)).2).1.map (Option.map (raw C)), it2) := by
  obtain ⟨c, h1, -⟩ := BinaryPartsIter.walk_state (rawSplit C) m (raw C r) ⟨r, hr, rfl⟩ C.umax debug hm w 0 0
    (capOf m) (fun _ => Nat.le_refl _) (Nat.zero_le _)
  have hle := cnts_le w (2 ^ m) 0 0 (Nat.zero_le _)
  obtain ⟨c', g1, -⟩ := BinaryPartsIter.walk_state (rawSplit C) m (raw C r) ⟨r, hr, rfl⟩ C.umax false hm w' _ _
    cap (fun h => by cases h) hle
  have hx := deqRun_cnts w (parts rawL (rawR C) m (raw C r)) 0 0
  rw [win_zero, parts_length] at hx
  rw [← hx, raw_parts C m r hr, deqRun_map, deqRun_map] at g1
  rw [win_zero, raw_parts C m r hr, deqRun_map] at h1
  exact ⟨_, _, _, BinaryPartsIter.new_pow _ m _ _, h1, g1⟩

/-- A defect in debug builds: a clone whose deque has capacity equal to its length
(what `VecDeque::clone` gives) trips `debug_assert_eq!(initial_cap, capacity)` on the
first `next`, already for a fresh iterator over four parts. -/
theorem C03_clone_debug_panics :
    ∃ it : BinaryPartsIter RawSlice, BinaryPartsIter.new (raw exC exR) 4 = .ok it ∧
      BinaryPartsIter.next (m := Except Fault) (RawSlice.splitOffLeft exC) exC.umax true
        (it.clone it.deque.items.length) = .error .debugAssert :=
  ⟨_, BinaryPartsIter.new_pow (raw exC exR) 2 id id, by
    simp [BinaryPartsIter.next, BinaryPartsIter.clone, BinaryPartsIter.state, BinaryPartsIter.len, pend, subU,
      exC, exR, raw, greatestPowerOf2Factor, shrinkLoop, BinaryPartsIter.frontLoop, Deque.pushFront,
      RawSlice.splitOffLeft, RawSlice.cloneLeft, RawSlice.cloneRight, RawSlice.leftSub, RawSlice.rightSub, Ctx.ptrAdd,
      bind, Except.bind, pure, Except.pure, throw, throwThe, MonadExceptOf.throw]⟩

/-- C04: the same for unique parts. -/
theorem C04_unique_walk (C : Ctx) (r : Rng) (hr : InBuf C r) (m : Nat) (hm : 2 ^ m ≤ C.umax) (w : List End) :
    ∃ it it', SliceItemsParts.new (enc C r) (2 ^ m) = .ok it ∧
      runWalk (SliceItemsParts.step C) w it =
        .ok ((deqRun w (rparts m r)).1.map (Option.map (enc C)), it') := by
  have h1 := SliceItemsParts.walk_pstate C m r hr hm w 0 0 (Nat.zero_le _)
  rw [win_zero] at h1
  exact ⟨_, _, SliceItemsParts.new_pow C m r, h1⟩

/-- C04: parts are disjoint and cover the slice: their item positions, concatenated,
are the slice's item positions. -/
theorem C04_parts_partition (m : Nat) (r : Rng) :
    (rparts m r).flatMap Rng.items = List.range' r.off r.len := by
  have := (rparts_tiles m r).items.1
  rw [this]; congr 1; omega

/-- C05: shared and unique iteration of the same slice return the same address and
length for every call of every walk. -/
theorem C05_same_cuts (C : Ctx) (r : Rng) (hr : InBuf C r) (m : Nat) (debug : Bool)
    (hm : 2 ^ m ≤ C.umax) (w : List End) :
    ∃ it1 it2 it1' it2' outs1 outs2,
      BinaryPartsIter.new (raw C r) (2 ^ m) = .ok it1 ∧
      SliceItemsParts.new ⟨(raw C r).ptr, (raw C r).len⟩ (2 ^ m) = .ok it2 ∧
      runWalk (BinaryPartsIter.step (RawSlice.splitOffLeft C) (RawSlice.splitOffRight C) C.umax debug) w it1 =
        .ok (outs1, it1') ∧
      runWalk (SliceItemsParts.step C) w it2 = .ok (outs2, it2') ∧
      outs1.map (Option.map fun s : RawSlice => (s.ptr, s.len)) =
        outs2.map (Option.map fun s : SliceItems => (s.ptr, s.len)) := by
  obtain ⟨a, a', h1, h2⟩ := C03_shared_walk C r hr m debug hm w
  obtain ⟨c, c', h3, h4⟩ := C04_unique_walk C r hr m hm w
  refine ⟨a, c, a', c', _, _, h1, h3, h2, h4, ?_⟩
  simp only [List.map_map]
  congr 1
  funext o; cases o <;> rfl

example : ∃ it it', BinaryPartsIter.new (raw exC exR) (2 ^ 2) = .ok it ∧
    runWalk (BinaryPartsIter.step (RawSlice.splitOffLeft exC) (RawSlice.splitOffRight exC) exC.umax true)
      [.front, .back, .front, .back, .front] it =
      .ok ([some ⟨4104, 1⟩, some ⟨4144, 2⟩, some ⟨4112, 2⟩, some ⟨4128, 2⟩, none], it') := by
  simpa [rparts, parts, deqRun, deqStep, raw, exC, exR, Rng.left, Rng.right] using
    C03_shared_walk exC exR (by decide) 2 true (by decide) [.front, .back, .front, .back, .front]
example : ∃ it it', SliceItemsParts.new (enc exC exR) (2 ^ 2) = .ok it ∧
    runWalk (SliceItemsParts.step exC) [.back, .front] it = .ok ([some ⟨4144, 2⟩, some ⟨4104, 1⟩], it') := by
  simpa [rparts, parts, deqRun, deqStep, enc, exC, exR, Rng.left, Rng.right] using
    C04_unique_walk exC exR (by decide) 2 (by decide) [.back, .front]

/-! ## C06 -/

theorem part_len_bounds (m : Nat) (r p : Rng) (hp : p ∈ rparts m r) :
    r.len < 2 ^ m * p.len + 2 ^ m ∧ 2 ^ m * p.len < r.len + 2 ^ m := by
  induction m generalizing r with
  | zero => simp [rparts, parts] at hp; subst hp; omega
  | succ m ih =>
    have hpow := Nat.two_pow_pos m
    have e : 2 ^ (m + 1) * p.len = 2 * (2 ^ m * p.len) := by
      rw [Nat.pow_succ, Nat.mul_comm (2 ^ m) 2, Nat.mul_assoc]
    rw [e, Nat.pow_succ]
    simp only [rparts, parts, List.mem_append] at hp
    rcases hp with hp | hp
    · have := ih r.left hp; simp only [Rng.left] at this; omega
    · have := ih r.right hp; simp only [Rng.right] at this; omega

/-- C06: every part of an `n`-item slice split into `k = 2^m` has `⌊n/k⌋` or `⌈n/k⌉`
items, and the lengths add up to `n`. -/
theorem C06_even (m : Nat) (r : Rng) :
    (∀ p ∈ rparts m r, p.len = r.len / 2 ^ m ∨ p.len = (r.len + 2 ^ m - 1) / 2 ^ m) ∧
    ((rparts m r).map Rng.len).sum = r.len := by
  constructor
  · intro p hp
    have ⟨h1, h2⟩ := part_len_bounds m r p hp
    have hpow := Nat.two_pow_pos m
    have a1 : r.len / 2 ^ m ≤ p.len := by
      rw [← Nat.lt_add_one_iff, Nat.div_lt_iff_lt_mul hpow, Nat.add_mul, Nat.one_mul, Nat.mul_comm]; exact h1
    have a2 : p.len ≤ (r.len + 2 ^ m - 1) / 2 ^ m := by
      rw [Nat.le_div_iff_mul_le hpow, Nat.mul_comm]; omega
    have a3 : (r.len + 2 ^ m - 1) / 2 ^ m ≤ r.len / 2 ^ m + 1 := by
      rw [← Nat.add_div_right _ hpow]; exact Nat.div_le_div_right (by omega)
    omega
  · rw [(rparts_tiles m r).sum]; omega

example : (rparts 2 exR).map Rng.len = [1, 2, 2, 2] := by decide
example : (rparts 3 ⟨0, 3⟩).map Rng.len = [0, 0, 0, 1, 0, 1, 0, 1] := by decide

/-! ## C07, C08 -/

theorem remaining_win (m : Nat) (r : Rng) (w : List End) :
    (deqRun w (rparts m r)).2 = win (rparts m r) (cnts w (2 ^ m) 0 0).1 (cnts w (2 ^ m) 0 0).2 := by
  have hx := deqRun_cnts w (rparts m r) 0 0
  rwa [win_zero, parts_length] at hx

/-- The parts still to come are consecutive: their items are one contiguous range that
starts where the first of them starts. -/
theorem remaining_contiguous (m : Nat) (r : Rng) (w : List End) :
    ∃ a, (deqRun w (rparts m r)).2.flatMap Rng.items =
        List.range' a ((deqRun w (rparts m r)).2.map Rng.len).sum ∧
      ∀ p, (deqRun w (rparts m r)).2.head? = some p → p.off = a := by
  rw [remaining_win]
  have ht := win_tiles m _ _ r (cnts_le w (2 ^ m) 0 0 (Nat.zero_le _))
  exact ⟨_, ht.items.1.trans (by rw [ht.sum]), fun p hp => ht.head hp⟩

/-- C07 and C08, shared parts: after any walk, `len()` (hence `size_hint`, `count`) is the
number of parts still to come, and `as_slice()` is exactly their items: it has their
total length, and, unless the items are zero-sized, it starts at the address of the
first of them. (By `remaining_contiguous` they are consecutive positions.) -/
theorem C07_C08_shared_parts (C : Ctx) (hC : C.Valid) (r : Rng) (hr : InBuf C r) (m dangling : Nat) (debug : Bool)
    (hm : 2 ^ m ≤ C.umax) (w : List End) :
    let rest := (deqRun w (rparts m r)).2
    ∃ it it' outs p, BinaryPartsIter.new (raw C r) (2 ^ m) = .ok it ∧
      runWalk (BinaryPartsIter.step (RawSlice.splitOffLeft C) (RawSlice.splitOffRight C) C.umax debug) w it =
        .ok (outs, it') ∧
      it'.len (m := Except Fault) = .ok rest.length ∧
      it'.asSlice C dangling id = .ok ⟨p, (rest.map Rng.len).sum⟩ ∧
      (C.size ≠ 0 → ∀ q, rest.head? = some q → p = C.base + q.off * C.size) := by
  obtain ⟨c, h1, -⟩ := BinaryPartsIter.walk_state (rawSplit C) m (raw C r) ⟨r, hr, rfl⟩ C.umax debug hm w 0 0
    (capOf m) (fun _ => Nat.le_refl _) (Nat.zero_le _)
  intro rest
  have hle := cnts_le w (2 ^ m) 0 0 (Nat.zero_le _)
  have ht := win_tiles m _ _ r hle
  have hrest : rest = _ := remaining_win m r w
  refine ⟨_, _, _, if (cnts w (2 ^ m) 0 0).1 + (cnts w (2 ^ m) 0 0).2 = 2 ^ m ∨ C.size = 0 then dangling else C.base + cut m (cnts w (2 ^ m) 0 0).1 r * C.size,
    BinaryPartsIter.new_pow _ m _ _, h1, ?_, ?_, ?_⟩
  · rw [BinaryPartsIter.len_eq _ (by simpa [BinaryPartsIter.state] using hle), hrest, win_length, parts_length]; rfl
  · rw [hrest, ht.sum]; exact BinaryPartsIter.asSlice_state C hC dangling m _ _ c r hr hle
  · intro hz q hq
    rw [hrest] at hq
    have hne : (cnts w (2 ^ m) 0 0).1 + (cnts w (2 ^ m) 0 0).2 ≠ 2 ^ m := by
      intro h; rw [win_done _ (by rw [parts_length]; omega)] at hq; cases hq
    rw [if_neg (by rintro (h | h) <;> contradiction), ht.head hq]

/-- C07 and C08, unique parts. -/
theorem C07_C08_unique_parts (C : Ctx) (hC : C.Valid) (r : Rng) (hr : InBuf C r) (m dangling : Nat)
    (hm : 2 ^ m ≤ C.umax) (w : List End) :
    let rest := (deqRun w (rparts m r)).2
    ∃ it it' outs p, SliceItemsParts.new (enc C r) (2 ^ m) = .ok it ∧
      runWalk (SliceItemsParts.step C) w it = .ok (outs, it') ∧
      it'.len = .ok rest.length ∧
      it'.asSlice C dangling = .ok ⟨p, (rest.map Rng.len).sum⟩ ∧
      (C.size ≠ 0 → ∀ q, rest.head? = some q → p = C.base + q.off * C.size) := by
  have h1 := SliceItemsParts.walk_pstate C m r hr hm w 0 0 (Nat.zero_le _)
  intro rest
  have hle := cnts_le w (2 ^ m) 0 0 (Nat.zero_le _)
  have ht := win_tiles m _ _ r hle
  have hrest : rest = _ := remaining_win m r w
  refine ⟨_, _, _, if (cnts w (2 ^ m) 0 0).1 + (cnts w (2 ^ m) 0 0).2 = 2 ^ m ∨ C.size = 0 then dangling else C.base + cut m (cnts w (2 ^ m) 0 0).1 r * C.size,
    SliceItemsParts.new_pow C m r, h1, ?_, ?_, ?_⟩
  · rw [SliceItemsParts.len_pstate _ _ _ _ _ hle, hrest, win_length, parts_length]
  · rw [hrest, ht.sum]; exact SliceItemsParts.asSlice_pstate C hC dangling m _ _ r hr hle
  · intro hz q hq
    rw [hrest] at hq
    have hne : (cnts w (2 ^ m) 0 0).1 + (cnts w (2 ^ m) 0 0).2 ≠ 2 ^ m := by
      intro h; rw [win_done _ (by rw [parts_length]; omega)] at hq; cases hq
    rw [if_neg (by rintro (h | h) <;> contradiction), ht.head hq]

/-- The conclusion is not trivial: two parts left after `[front, back]`, showing 4 items. -/
example : (deqRun [.front, .back] (rparts 2 exR)).2 = [⟨2, 2⟩, ⟨4, 2⟩] := by decide
example : exC.Valid ∧ exZ.Valid ∧ InBuf exC exR ∧ InBuf exZ exR ∧ 2 ^ 2 ≤ exC.umax :=
  ⟨exC_valid, exZ_valid, by decide, by decide, by decide⟩

/-! ## C09, C10 -/

/-- C09: the capacity reserved at construction is 1 for one or two parts and
`2*log2(k) - 2` otherwise, and after any walk it is the same: since every push beyond
the capacity grows it for good (`Deque.pushFront`, `Deque.pushBack`), no push at any
moment of any call went beyond it. -/
theorem C09_no_growth (C : Ctx) (r : Rng) (hr : InBuf C r) (m : Nat) (debug : Bool)
    (hm : 2 ^ m ≤ C.umax) (w : List End) :
    ∃ it it' outs, BinaryPartsIter.new (raw C r) (2 ^ m) = .ok it ∧
      it.deque.cap = (if m ≤ 1 then 1 else 2 * m - 2) ∧
      runWalk (BinaryPartsIter.step (RawSlice.splitOffLeft C) (RawSlice.splitOffRight C) C.umax debug) w it =
        .ok (outs, it') ∧
      it'.deque.cap = it.deque.cap ∧ it'.deque.items.length ≤ it.deque.cap := by
  obtain ⟨c, h1, -, h2⟩ := BinaryPartsIter.walk_state (rawSplit C) m (raw C r) ⟨r, hr, rfl⟩ C.umax debug hm w 0 0
    (capOf m) (fun _ => Nat.le_refl _) (Nat.zero_le _)
  exact ⟨_, _, _, BinaryPartsIter.new_pow _ m _ _, rfl, h1, h2 (Nat.le_refl _),
    pend_length_le _ _ _ _ _ _ (cnts_le w (2 ^ m) 0 0 (Nat.zero_le _))⟩

/-- The capacity is not over-generous: with 8 parts, one call from each end fills it. -/
theorem C09_tight : ∃ it it' outs, BinaryPartsIter.new (raw exC exR) (2 ^ 3) = .ok it ∧
    runWalk (BinaryPartsIter.step (RawSlice.splitOffLeft exC) (RawSlice.splitOffRight exC) exC.umax true)
      [.front, .back] it = .ok (outs, it') ∧ it'.deque.items.length = it.deque.cap := by
  obtain ⟨c, h1, -, h2⟩ := BinaryPartsIter.walk_state (rawSplit exC) 3 (raw exC exR) ⟨exR, by decide, rfl⟩ exC.umax true
    (by decide) [.front, .back] 0 0 (capOf 3) (fun _ => Nat.le_refl _) (by omega)
  exact ⟨_, _, _, BinaryPartsIter.new_pow _ 3 _ _, h1, by simp [BinaryPartsIter.state, pend, cnts, capOf]⟩

/-- C10: two walks with the same numbers of calls from each end, as long as they do not
run past the end, lead to the very same iterator state; and in all cases both leave
the same number of elements when past the end (none). -/
theorem C10_commute (C : Ctx) (r : Rng) (hr : InBuf C r) (m : Nat) (debug : Bool)
    (hm : 2 ^ m ≤ C.umax) (w w' : List End) (hp : w.Perm w') :
    ∃ it it1 it2 o1 o2, BinaryPartsIter.new (raw C r) (2 ^ m) = .ok it ∧
      runWalk (BinaryPartsIter.step (RawSlice.splitOffLeft C) (RawSlice.splitOffRight C) C.umax debug) w it =
        .ok (o1, it1) ∧
      runWalk (BinaryPartsIter.step (RawSlice.splitOffLeft C) (RawSlice.splitOffRight C) C.umax debug) w' it =
        .ok (o2, it2) ∧
      (w.length ≤ 2 ^ m → it1 = it2) ∧
      (2 ^ m ≤ w.length → it1.deque = it2.deque ∧ it1.deque.items = [] ∧
        it1.len (m := Except Fault) = .ok 0 ∧ it2.len (m := Except Fault) = .ok 0) := by
  obtain ⟨c, h1, -, h2⟩ := BinaryPartsIter.walk_state (rawSplit C) m (raw C r) ⟨r, hr, rfl⟩ C.umax debug hm w 0 0
    (capOf m) (fun _ => Nat.le_refl _) (Nat.zero_le _)
  obtain ⟨c', g1, -, g2⟩ := BinaryPartsIter.walk_state (rawSplit C) m (raw C r) ⟨r, hr, rfl⟩ C.umax debug hm w' 0 0
    (capOf m) (fun _ => Nat.le_refl _) (Nat.zero_le _)
  have e1 := h2 (Nat.le_refl _)
  have e2 := g2 (Nat.le_refl _)
  subst e1; subst e2
  refine ⟨_, _, _, _, _, BinaryPartsIter.new_pow _ m _ _, h1, g1, ?_, ?_⟩
  · intro hw
    rw [cnts_eq _ _ _ _ (by omega), cnts_eq _ _ _ _ (by have := hp.length_eq; omega)]
    simp only [countFront, countBack, hp.count_eq]
  · intro hw
    have f1 := cnts_full w (2 ^ m) 0 0 (by omega) (Nat.zero_le _)
    have f2 := cnts_full w' (2 ^ m) 0 0 (by have := hp.length_eq; omega) (Nat.zero_le _)
    refine ⟨?_, ?_, ?_, ?_⟩
    · simp only [BinaryPartsIter.state, pend_full _ _ _ _ _ _ f1, pend_full _ _ _ _ _ _ f2]
    · simp only [BinaryPartsIter.state, pend_full _ _ _ _ _ _ f1]
    · rw [BinaryPartsIter.len_eq _ (by simp [BinaryPartsIter.state]; omega)]
      simp only [BinaryPartsIter.state, pure, Except.pure]; congr 1; omega
    · rw [BinaryPartsIter.len_eq _ (by simp [BinaryPartsIter.state]; omega)]
      simp only [BinaryPartsIter.state, pure, Except.pure]; congr 1; omega

example : List.Perm [End.front, .back, .front] [.back, .front, .front] := by decide

/-! ## C11, C12 -/

/-- The items handed out by a history. -/
def yielded {α : Type} (outs : List (IterOut α)) : List α :=
  outs.filterMap fun o => match o with
    | .item x => x
    | _ => none

/-- C11, the reference behaviour conserves items: what was handed out together with
what the iterators still hold is a permutation of what they held at first. -/
theorem C11_spec_conserves {α : Type} (ops : List IterOp) (pool : List (List α)) :
    (yielded (iterRun ops pool).1 ++ (iterRun ops pool).2.flatten).Perm pool.flatten := by
  induction ops generalizing pool with
  | nil => simp [iterRun, yielded]
  | cons op ops ih =>
    simp only [iterRun]
    cases hs : iterStep pool op with
    | none => exact ih pool
    | some p =>
      obtain ⟨o, pool'⟩ := p
      simp only
      have key : (yielded [o] ++ pool'.flatten).Perm pool.flatten := by
        have := iterStep_conserves' hs
        cases o with
        | item x => cases x <;> simpa [yielded, outItems] using this
        | split => simpa [yielded, outItems] using this
        | panicked => simpa [yielded, outItems] using this
      have : yielded (o :: (iterRun ops pool').1) = yielded [o] ++ yielded (iterRun ops pool').1 := by
        simp only [yielded, ← List.filterMap_append]; rfl
      rw [this, List.append_assoc]
      exact (List.Perm.append_left _ (ih pool')).trans key

/-- C11: `into_iter()` on a unique slice, followed by any history of `next`, `next_back`,
`split_off_from` and `split_off_to` on it and on the iterators split off, never
faults and hands out exactly what the reference pool of lists hands out (as the
location each item is read from). -/
theorem C11_walk (C : Ctx) (hC : C.Valid) (r : Rng) (hr : InBuf C r) (ops : List IterOp) :
    ∃ it pool', SliceItemsIter.new C (enc C r) = .ok it ∧
      SliceItemsIter.poolRun C ops [it] =
        .ok ((iterRun ops [r.items]).1.map (IterOut.map (loc C r.off)), pool') := by
  obtain ⟨it, h1, h2⟩ := SliceItemsIter.new_rep C r hr
  obtain ⟨p, h3, -⟩ := SliceItemsIter.poolRun_rep hC ops (.cons h2 .nil)
  exact ⟨it, p, h1, h3⟩

/-- C11: no item is handed out twice and none is invented: the locations handed out,
with those still held by the iterators, are exactly the slice's locations. -/
theorem C11_once (C : Ctx) (r : Rng) (ops : List IterOp) :
    (yielded ((iterRun ops [r.items]).1.map (IterOut.map (loc C r.off))) ++
      (iterRun ops [r.items]).2.flatten.map (loc C r.off)).Perm (r.items.map (loc C r.off)) := by
  have h := (C11_spec_conserves ops [r.items]).map (loc C r.off)
  rw [List.map_append] at h
  have e : ∀ (outs : List (IterOut Nat)) (g : Nat → Nat),
      yielded (outs.map (IterOut.map g)) = (yielded outs).map g := by
    intro outs g
    induction outs with
    | nil => rfl
    | cons o os ih =>
      simp only [yielded] at ih ⊢
      cases o with
      | item x => cases x <;> simp [IterOut.map, ih]
      | split => simp [IterOut.map, ih]
      | panicked => simp [IterOut.map, ih]
  rw [e]
  simpa using h

/-- Different items of a slice are at different locations (also for zero-sized items,
where the location is the index). -/
theorem C11_locations_distinct (C : Ctx) (r : Rng) : (r.items.map (loc C r.off)).Nodup := by
  have hinj : ∀ a ∈ r.items, ∀ b ∈ r.items, loc C r.off a = loc C r.off b → a = b := by
    intro a ha b hb h
    simp only [Rng.items, List.mem_range'_1] at ha hb
    unfold loc at h
    by_cases hz : C.size = 0
    · simp only [hz, if_true] at h; omega
    · simp only [hz, if_false] at h
      exact Nat.mul_right_cancel (Nat.pos_of_ne_zero hz) (by omega)
  rw [List.nodup_iff_pairwise_ne, List.pairwise_map]
  refine (List.nodup_range' (s := r.off) (n := r.len)).imp_of_mem ?_
  intro a b ha hb hne h
  exact hne (hinj a ha b hb h)

/-- Drain an item iterator from the front. -/
def drain (C : Ctx) : Nat → SliceItemsIter → Except Fault (List Nat)
  | 0, _ => .ok []
  | n + 1, it => match it.next C with
    | .error e => .error e
    | .ok (none, _) => .ok []
    | .ok (some x, it') => match drain C n it' with
      | .error e => .error e
      | .ok xs => .ok (x :: xs)

theorem drain_rep {C : Ctx} (hC : C.Valid) {o : Nat} {it : SliceItemsIter} {xs : List Nat}
    (h : SliceItemsIter.Rep C o it xs) (n : Nat) (hn : xs.length ≤ n) : drain C n it = .ok (xs.map (loc C o)) := by
  induction n generalizing it xs with
  | zero => have : xs = [] := List.eq_nil_of_length_eq_zero (by omega); subst this; rfl
  | succ n ih =>
    obtain ⟨it', g1, g2⟩ := SliceItemsIter.next_rep hC h
    cases xs with
    | nil => simp only [drain, g1, List.head?_nil, Option.map_none]; rfl
    | cons x xs =>
      simp only [List.length_cons] at hn
      simp only [drain, g1, List.head?_cons, Option.map_some]
      simp only [ih g2 (by simp; omega)]; simp

/-- C12 (and C07, C08 for item iterators): after any history, iterator `i` still holds
the list `xs` of the reference pool. Then `len()` is `xs.length`; `as_slice()` has
that length and starts at the first item still held; `split_off_from(at)` and
`split_off_to(at)` panic exactly if `at > xs.length`; otherwise they split `xs` at `at`
(what an iterator holds is observed by draining it). -/
theorem C12_split_off (C : Ctx) (hC : C.Valid) (r : Rng) (hr : InBuf C r) (ops : List IterOp)
    (i : Nat) (xs : List Nat) (hi : (iterRun ops [r.items]).2[i]? = some xs) (dangling at_ n : Nat)
    (hn : r.len ≤ n) :
    ∃ it0 outs pool it, SliceItemsIter.new C (enc C r) = .ok it0 ∧
      SliceItemsIter.poolRun C ops [it0] = .ok (outs, pool) ∧ pool[i]? = some it ∧
      it.len C = .ok xs.length ∧
      (∃ p, it.asSlice C dangling = .ok ⟨p, xs.length⟩ ∧
        (C.size ≠ 0 → ∀ x, xs.head? = some x → p = C.base + x * C.size)) ∧
      (it.splitOffFrom C at_ = .error .panic ↔ xs.length < at_) ∧
      (it.splitOffTo C at_ = .error .panic ↔ xs.length < at_) ∧
      (at_ ≤ xs.length → ∃ a b a' b', it.splitOffFrom C at_ = .ok (b, a) ∧ it.splitOffTo C at_ = .ok (a', b') ∧
        drain C n a = .ok ((xs.take at_).map (loc C r.off)) ∧ drain C n b = .ok ((xs.drop at_).map (loc C r.off)) ∧
        drain C n a' = .ok ((xs.take at_).map (loc C r.off)) ∧ drain C n b' = .ok ((xs.drop at_).map (loc C r.off))) := by
  obtain ⟨it0, h1, h2⟩ := SliceItemsIter.new_rep C r hr
  obtain ⟨pool, h3, h4⟩ := SliceItemsIter.poolRun_rep hC ops (.cons h2 .nil)
  rcases h4.get i with ⟨-, hx⟩ | ⟨it, xs', hit, hxs, hrep⟩
  · rw [hi] at hx; cases hx
  rw [hi] at hxs; cases hxs
  have hlen : xs.length ≤ r.len := by
    have hp := (C11_spec_conserves ops [r.items]).length_eq
    have : xs.length ≤ (iterRun ops [r.items]).2.flatten.length :=
      (List.sublist_flatten_of_mem (List.mem_of_getElem? hi)).length_le
    simp [Rng.items] at hp this
    omega
  refine ⟨it0, _, pool, it, h1, h3, hit, SliceItemsIter.rep_len hrep, SliceItemsIter.asSlice_rep hrep dangling, ?_, ?_, ?_⟩
  · rcases SliceItemsIter.splitOffFrom_rep hC hrep at_ with ⟨a, b⟩ | ⟨a, s, t, b, -⟩
    · simp [a, b]
    · rw [b]; constructor
      · intro h; cases h
      · intro h; omega
  · rcases SliceItemsIter.splitOffTo_rep hC hrep at_ with ⟨a, b⟩ | ⟨a, s, t, b, -⟩
    · simp [a, b]
    · rw [b]; constructor
      · intro h; cases h
      · intro h; omega
  · intro hle
    rcases SliceItemsIter.splitOffFrom_rep hC hrep at_ with ⟨a, b⟩ | ⟨-, s, t, b, c, d⟩
    · omega
    rcases SliceItemsIter.splitOffTo_rep hC hrep at_ with ⟨a, b'⟩ | ⟨-, s', t', b', c', d'⟩
    · omega
    refine ⟨t, s, s', t', b, b', drain_rep hC d n ?_, drain_rep hC c n ?_, drain_rep hC c' n ?_, drain_rep hC d' n ?_⟩ <;>
      simp <;> omega

example : iterRun [.next 0, .splitOffFrom 0 2, .nextBack 1, .splitOffTo 0 9] [exR.items] =
    ([.item (some 1), .split, .item (some 7), .panicked], [[2, 3], [4, 5, 6]]) := by decide
example : (iterRun [.next 0, .splitOffFrom 0 2, .nextBack 1, .splitOffTo 0 9] [exR.items]).2[1]? = some [4, 5, 6] := by
  decide

/-! ## C13 -/

/-- C13: for every valid layout, every slice in the buffer, every power of two and every
walk or history, no checked operation faults, and every handle produced lies inside
the slice: its address is between the slice's first and one-past-last address. -/
theorem C13_in_bounds (C : Ctx) (hC : C.Valid) (r : Rng) (hr : InBuf C r) (m dangling : Nat) (debug : Bool)
    (hm : 2 ^ m ≤ C.umax) (w : List End) (ops : List IterOp) :
    (∃ it it' outs v, BinaryPartsIter.new (raw C r) (2 ^ m) = .ok it ∧
      runWalk (BinaryPartsIter.step (RawSlice.splitOffLeft C) (RawSlice.splitOffRight C) C.umax debug) w it = .ok (outs, it') ∧
      it'.asSlice C dangling id = .ok v ∧
      ∀ s, some s ∈ outs → (raw C r).ptr ≤ s.ptr ∧ s.ptr + s.len * C.size ≤ (raw C r).ptr + r.len * C.size) ∧
    (∃ it it' outs v, SliceItemsParts.new (enc C r) (2 ^ m) = .ok it ∧
      runWalk (SliceItemsParts.step C) w it = .ok (outs, it') ∧ it'.asSlice C dangling = .ok v ∧
      ∀ s, some s ∈ outs → (enc C r).ptr ≤ s.ptr ∧ s.ptr + s.len * C.size ≤ (enc C r).ptr + r.len * C.size) ∧
    (∃ it outs pool, SliceItemsIter.new C (enc C r) = .ok it ∧ SliceItemsIter.poolRun C ops [it] = .ok (outs, pool) ∧
      ∀ a ∈ yielded outs, C.size ≠ 0 →
        (enc C r).ptr ≤ a ∧ a + C.size ≤ (enc C r).ptr + r.len * C.size) := by
  have hin : ∀ q, some q ∈ (deqRun w (rparts m r)).1 → r.off ≤ q.off ∧ q.off + q.len ≤ r.off + r.len := by
    intro q hq
    have := mem_deqRun w _ hq
    exact rparts_sub m r q this
  have hmul : ∀ a n, a + n ≤ r.off + r.len →
      C.base + a * C.size + n * C.size ≤ C.base + r.off * C.size + r.len * C.size := by
    intro a n h
    have := Nat.mul_le_mul_right C.size h
    rw [Nat.add_mul, Nat.add_mul] at this; omega
  refine ⟨?_, ?_, ?_⟩
  · obtain ⟨it, it', outs, p, h1, h2, -, h3, -⟩ := C07_C08_shared_parts C hC r hr m dangling debug hm w
    obtain ⟨jt, jt', g1, g2⟩ := C03_shared_walk C r hr m debug hm w
    rw [h1] at g1; cases g1
    rw [h2] at g2; cases g2
    refine ⟨it, it', _, _, h1, h2, h3, ?_⟩
    intro s hs
    simp only [List.mem_map] at hs
    obtain ⟨o, ho, e⟩ := hs
    cases o with
    | none => cases e
    | some q =>
      simp only [Option.map_some, Option.some.injEq] at e; subst e
      obtain ⟨a, b⟩ := hin q ho
      have := Nat.mul_le_mul_right C.size a
      exact ⟨by simp only [raw]; omega, hmul _ _ b⟩
  · obtain ⟨it, it', outs, p, h1, h2, -, h3, -⟩ := C07_C08_unique_parts C hC r hr m dangling hm w
    obtain ⟨jt, jt', g1, g2⟩ := C04_unique_walk C r hr m hm w
    rw [h1] at g1; cases g1
    rw [h2] at g2; cases g2
    refine ⟨it, it', _, _, h1, h2, h3, ?_⟩
    intro s hs
    simp only [List.mem_map] at hs
    obtain ⟨o, ho, e⟩ := hs
    cases o with
    | none => cases e
    | some q =>
      simp only [Option.map_some, Option.some.injEq] at e; subst e
      obtain ⟨a, b⟩ := hin q ho
      have := Nat.mul_le_mul_right C.size a
      exact ⟨by simp only [enc]; omega, hmul _ _ b⟩
  · obtain ⟨it, pool, h1, h2⟩ := C11_walk C hC r hr ops
    refine ⟨it, _, pool, h1, h2, ?_⟩
    intro a ha hz
    have hperm := C11_once C r ops
    have : a ∈ r.items.map (loc C r.off) := hperm.subset (List.mem_append_left _ ha)
    simp only [List.mem_map, Rng.items, List.mem_range'_1] at this
    obtain ⟨x, ⟨hx1, hx2⟩, rfl⟩ := this
    simp only [loc, hz, if_false, enc]
    have h3 := Nat.mul_le_mul_right C.size hx1
    have h4 := hmul x 1 (by omega)
    omega

example : exC.Valid ∧ InBuf exC exR ∧ 2 ^ 5 ≤ exC.umax := ⟨exC_valid, by decide, by decide⟩

end Verif
