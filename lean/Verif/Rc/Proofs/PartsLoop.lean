import Verif.Rc.SharedParts
import Verif.Props.RcFrame
import Verif.Proofs.SharedParts
/-!
# Splitting the elements of an iterator over shared parts
-/

namespace Verif.Spec

/-- The other half. -/
def Side.other : Side → Side
  | .L => .R
  | .R => .L

namespace World
variable {α : Type}

theorem rangeOf_half (w : World α) (f : Nat) (p : List Side) (s : Side) :
    w.rangeOf f (w.halfPath f p s) = (w.rangeOf f p).half s := by
  cases s <;> simp only [halfPath] <;> split <;> rename_i h
  · rcases hr : w.rangeOf f p with ⟨off, len⟩
    rw [hr] at h; simp only at h; subst h; simp only [Rng.half, Rng.left]
  · rfl
  · rcases hr : w.rangeOf f p with ⟨off, len⟩
    rw [hr] at h; simp only at h
    simp only [Rng.half, Rng.right, show len / 2 = 0 by omega]; simp
  · rfl

theorem has_half (r : Rng) (i : Nat) (h : r.has i = true) (s : Side) : (r.half s).has i = true ∨ (r.half s.other).has i = true := by
  simp only [Rng.has, Bool.and_eq_true, decide_eq_true_eq] at h ⊢
  cases s <;> simp only [Rng.half, Rng.left, Rng.right, Side.other] <;> omega

theorem half_has (r : Rng) (i : Nat) (s : Side) (h : (r.half s).has i = true) : r.has i = true := by
  simp only [Rng.has, Bool.and_eq_true, decide_eq_true_eq] at h ⊢
  cases s <;> simp only [Rng.half, Rng.left, Rng.right] at h <;> omega

/-- Some half of a member that keeps the memory keeps it. -/
theorem holdsOf_half (w : World α) (f : Nat) (p : List Side) (h : w.holdsOf f p = true) : w.holdsOf f (w.halfPath f p .R) = true := by
  simp only [holdsOf, Bool.and_eq_true, Bool.or_eq_true, decide_eq_true_eq] at h ⊢
  refine ⟨h.1, ?_⟩
  by_cases hl : (w.rangeOf f p).len ≤ 1
  · have : w.halfPath f p .R = p := by simp only [halfPath, if_pos hl]
    rw [this]; exact h.2
  · right
    rw [rangeOf_half]; simp only [Rng.half, Rng.right]; omega

theorem splitOff_act (umax : Nat) {w : World α} {k f : Nat} {p : List Side} (hk : w.get k = some (.shared f p)) (s : Side) :
    w.act umax (.splitOff s k) =
      ((w.put k (.shared f (w.halfPath f p s.other))).push (.shared f (w.halfPath f p s)), .handle) := by
  cases s <;> simp only [act, hk, Side.other]

end World
end Verif.Spec

namespace Verif.Rc
open Verif.Spec (Side Slot Family Rng Hand World Op Obs End parts)
variable {α : Type} {umax : Nat}

/-- Only handles among `src`, and new ones, were used and replaced; nothing else happened. -/
structure Mv (umax : Nat) (s : State α) (w : World α) (src : List Nat) (s' : State α) (w' : World α) : Prop where
  runs : ∃ ops os, run umax s ops = .ok (s', os) ∧ w' = (w.run umax ops).1 ∧ ∀ op ∈ ops, ∀ k, op.on = some k → k ∈ src ∨ w.hs.length ≤ k
  rel : Rel umax s' w' []
  frame : ∀ k, k < w.hs.length → k ∉ src → w'.get k = w.get k
  fams : w'.fams = w.fams
  len : w.hs.length ≤ w'.hs.length
  items : w'.items = w.items
  mem : w'.mem = w.mem

theorem run_append {s s1 s2 : State α} {a b : List (Op α)} {oa ob : List (Obs α)} (h1 : run umax s a = .ok (s1, oa)) (h2 : run umax s1 b = .ok (s2, ob)) :
    run umax s (a ++ b) = .ok (s2, oa ++ ob) := by
  induction a generalizing s oa with
  | nil => simp only [run, Except.ok.injEq, Prod.mk.injEq] at h1; obtain ⟨rfl, rfl⟩ := h1; exact h2
  | cons op a ih =>
    simp only [run, List.cons_append, bind, Except.bind] at h1 ⊢
    cases hc : call umax s op with
    | error e => rw [hc] at h1; cases h1
    | ok q =>
      rw [hc] at h1; simp only at h1 ⊢
      cases hr : run umax q.1 a with
      | error e => rw [hr] at h1; cases h1
      | ok q2 =>
        rw [hr] at h1; simp only [pure, Except.pure, Except.ok.injEq, Prod.mk.injEq] at h1
        obtain ⟨rfl, rfl⟩ := h1
        rw [ih (oa := q2.2) hr]; rfl

theorem Mv.refl {s : State α} {w : World α} (R : Rel umax s w []) (src : List Nat) : Mv umax s w src s w :=
  ⟨⟨[], [], rfl, rfl, by simp⟩, R, fun _ _ _ => rfl, rfl, Nat.le_refl _, rfl, rfl⟩

theorem Mv.trans {s s1 s2 : State α} {w w1 w2 : World α} {src src1 : List Nat} (a : Mv umax s w src s1 w1) (b : Mv umax s1 w1 src1 s2 w2)
    (h : ∀ k ∈ src1, k ∈ src ∨ w.hs.length ≤ k) : Mv umax s w src s2 w2 := by
  refine ⟨?_, b.rel, ?_, b.fams.trans a.fams, Nat.le_trans a.len b.len, b.items.trans a.items, b.mem.trans a.mem⟩
  · obtain ⟨o1, r1, e1, f1, u1⟩ := a.runs
    obtain ⟨o2, r2, e2, f2, u2⟩ := b.runs
    refine ⟨o1 ++ o2, r1 ++ r2, run_append e1 e2, by rw [f2, f1, World.run_append], ?_⟩
    intro op ho k hk
    rcases List.mem_append.1 ho with ho | ho
    · exact u1 op ho k hk
    · rcases u2 op ho k hk with h' | h'
      · exact h k h'
      · exact .inr (Nat.le_trans a.len h')
  · intro k hk hn
    rw [b.frame k (Nat.lt_of_lt_of_le hk a.len), a.frame k hk hn]
    intro hm
    rcases h k hm with h | h
    · exact hn h
    · omega

theorem run_one {s s' : State α} {op : Op α} {o : Obs α} (h : call umax s op = .ok (s', o)) : run umax s [op] = .ok (s', [o]) := by
  simp only [run, h]; rfl

theorem pm_bind {β γ : Type} {x : PM α β} {g : β → PM α γ} {s s1 : State α} {b : β} (h : x s = .ok (.ok b, s1)) : (x >>= g) s = g b s1 := by
  have : (x >>= g) s = Except.bind (x s) fun q => (ExceptT.bindCont g q.1 : StateT (State α) (Except UB) _) q.2 := rfl
  rw [this, h]; rfl

/-- One `split_off`. -/
theorem split_step {s : State α} {w : World α} (R : Rel umax s w []) {k f : Nat} {p : List Side} (hk : w.get k = some (.shared f p)) (sd : Side) :
    ∃ s' w', (splitOffK umax sd k : PM α _) s = .ok (.ok (w.hs.length, k), s') ∧ Mv umax s w [k] s' w' ∧
      w'.get k = some (.shared f (w.halfPath f p sd.other)) ∧ w'.get w.hs.length = some (.shared f (w.halfPath f p sd)) ∧
      w'.hs.length = w.hs.length + 1 := by
  obtain ⟨s', o, e, R', ho⟩ := call_sim R (.splitOff sd k)
  have ea := World.splitOff_act umax hk sd
  have hlt := World.get_lt hk
  have hg : ∀ k', (w.call umax (.splitOff sd k)).1.get k' =
      ((w.put k (.shared f (w.halfPath f p sd.other))).push (.shared f (w.halfPath f p sd))).get k' := by
    intro k'; simp only [World.call, ea, World.settle_get]
  have hl : (w.put k (.shared f (w.halfPath f p sd.other))).hs.length = w.hs.length := by simp [World.put]
  have g1 : (w.call umax (.splitOff sd k)).1.get k = some (.shared f (w.halfPath f p sd.other)) := by
    rw [hg, World.get_push_lt (by rw [hl]; exact hlt), World.get_put_self hk]
  have g2 : (w.call umax (.splitOff sd k)).1.get w.hs.length = some (.shared f (w.halfPath f p sd)) := by
    rw [hg, ← hl, World.get_push_self]
  have g3 : ∀ k', k' < w.hs.length → k' ∉ [k] → (w.call umax (.splitOff sd k)).1.get k' = w.get k' := by
    intro k' h1 h2
    rw [hg, World.get_push_lt (by rw [hl]; exact h1), World.get_put_ne _ (by simpa using h2)]
  have hh : ∀ t : Side, ∃ k', (w.call umax (.splitOff sd k)).1.get k' = some (.shared f (w.halfPath f p t)) := by
    intro t
    by_cases e : t = sd
    · subst e; exact ⟨_, g2⟩
    · refine ⟨k, ?_⟩
      have : sd.other = t := by cases sd <;> cases t <;> simp_all [Side.other]
      rw [← this]; exact g1
  have cv : ∀ k' y, w.get k' = some y → k' ≠ k → (w.call umax (.splitOff sd k)).1.get k' = some y := by
    intro k' y h1 h2
    rw [g3 k' (World.get_lt h1) (by simpa using h2)]; exact h1
  have hfam : (w.call umax (.splitOff sd k)).1.fams = w.fams := by simp only [World.call, ea]; rfl
  have keep := settle_same R rfl (w' := (w.act umax (.splitOff sd k)).1) (by rw [ea]; rfl) (by rw [ea]; rfl)
    (by
      rintro b i ⟨k', y, h1, h2⟩
      by_cases e : k' = k
      · subst e; rw [hk] at h1; cases h1
        simp only [World.covers, Bool.and_eq_true] at h2
        rcases World.has_half _ _ h2.2 .L with h3 | h3
        · obtain ⟨k2, e2⟩ := hh .L
          refine ⟨k2, _, e2, ?_⟩
          simp only [World.covers, Bool.and_eq_true]
          rw [ea]; exact ⟨h2.1, by have := World.rangeOf_half w f p .L; simp only [World.rangeOf] at this h3 ⊢; exact this ▸ h3⟩
        · obtain ⟨k2, e2⟩ := hh .R
          refine ⟨k2, _, e2, ?_⟩
          simp only [World.covers, Bool.and_eq_true]
          rw [ea]; exact ⟨h2.1, by have := World.rangeOf_half w f p .R; simp only [World.rangeOf] at this h3 ⊢; exact this ▸ h3⟩
      · refine ⟨k', y, cv k' y h1 e, ?_⟩
        rw [ea]; cases y <;> exact h2)
    (by
      rintro b ⟨k', y, h1, h2⟩
      by_cases e : k' = k
      · subst e; rw [hk] at h1; cases h1
        simp only [World.keeps, Bool.and_eq_true] at h2
        obtain ⟨k2, e2⟩ := hh .R
        refine ⟨k2, _, e2, ?_⟩
        simp only [World.keeps, Bool.and_eq_true]
        rw [ea]; exact ⟨h2.1, World.holdsOf_half w f p h2.2⟩
      · refine ⟨k', y, cv k' y h1 e, ?_⟩
        rw [ea]; cases y <;> exact h2)
  refine ⟨s', (w.call umax (.splitOff sd k)).1, ?_, ⟨⟨[_], [_], run_one e, rfl, by simp [Op.on]⟩, R', g3, hfam, ?_, keep.1, keep.2⟩, g1, g2, ?_⟩
  · simp only [splitOffK, e, R.hs_len]
  · simp only [World.call, ea]; simp [World.settle, World.push, World.put]
  · simp only [World.call, ea]; simp [World.settle, World.push, World.put]

/-! ## The loops -/

section
variable {s : State α} {w : World α}

/-- The handles are at these members of the family. -/
def Ats (w : World α) (f : Nat) (ks : List Nat) (ps : List (List Side)) : Prop := ks.map w.get = ps.map fun p => some (.shared f p)

theorem Ats.append {f : Nat} {ks ks' : List Nat} {ps ps' : List (List Side)} (h : Ats w f ks ps) (h' : Ats w f ks' ps') : Ats w f (ks ++ ks') (ps ++ ps') := by
  simp only [Ats, List.map_append] at *; rw [h, h']

theorem Ats.mem {f : Nat} {ks : List Nat} {ps : List (List Side)} (h : Ats w f ks ps) {k : Nat} (hk : k ∈ ks) : ∃ p, p ∈ ps ∧ w.get k = some (.shared f p) := by
  have : w.get k ∈ ks.map w.get := List.mem_map_of_mem hk
  rw [h] at this
  obtain ⟨p, h1, h2⟩ := List.mem_map.1 this
  exact ⟨p, h1, h2.symm⟩

theorem Ats.lt {f : Nat} {ks : List Nat} {ps : List (List Side)} (h : Ats w f ks ps) {k : Nat} (hk : k ∈ ks) : k < w.hs.length := by
  obtain ⟨p, _, e⟩ := h.mem hk; exact World.get_lt e

theorem Ats.frame {f : Nat} {ks : List Nat} {ps : List (List Side)} {w' : World α} (h : Ats w f ks ps) (hf : ∀ k ∈ ks, w'.get k = w.get k) : Ats w' f ks ps := by
  simp only [Ats] at *
  rw [← h]; exact List.map_congr_left hf

theorem halfPath_fams {w w' : World α} (h : w'.fams = w.fams) (f : Nat) (p : List Side) (t : Side) : w'.halfPath f p t = w.halfPath f p t := by
  cases t <;> simp only [World.halfPath, World.rangeOf, World.fam, h] <;> rfl

/-- What a loop leaves: the item, and the deque. -/
structure Peeled (umax : Nat) (s : State α) (w : World α) (src : List Nat) (f : Nat) (q : List Side) (qs : List (List Side)) (i : Nat) (ks : List Nat)
    (s' : State α) (w' : World α) : Prop where
  mv : Mv umax s w src s' w'
  item : w'.get i = some (.shared f q)
  rest : Ats w' f ks qs
  from_ : ∀ k ∈ i :: ks, k ∈ src ∨ w.hs.length ≤ k
  nodup : (i :: ks).Nodup

/-- `j` more rounds of a loop that has an item. -/
def PeelSome (umax : Nat) (sd : Side) (f j : Nat) : Prop :=
  ∀ {s : State α} {w : World α}, Rel umax s w [] → ∀ {i : Nat} {p : List Side}, w.get i = some (.shared f p) → ∀ (dq : List Nat) (cap : Nat),
    ∃ i' ks cap' s' w', (BinaryPartsIter.frontLoop (splitOffK umax sd) (2 ^ j) (some i) ⟨dq, cap⟩ : PM α _) s = .ok (.ok (some i', ⟨ks ++ dq, cap'⟩), s') ∧
      Peeled umax s w [i] f (leftmost (w.halfPath f · sd) j p) (unroll (w.halfPath f · sd) (w.halfPath f · sd.other) j p) i' ks s' w'

theorem peel_bind (sd : Side) (f j : Nat) (ih : PeelSome (α := α) umax sd f j) (R : Rel umax s w []) {i : Nat} {p : List Side}
    (hi : w.get i = some (.shared f p)) (dq : List Nat) (cap : Nat) :
    ∃ i' ks cap' s' w', (splitOffK umax sd i >>= fun q => BinaryPartsIter.frontLoop (splitOffK umax sd) (2 ^ j) (some q.1) ⟨q.2 :: dq, cap⟩ : PM α _) s =
        .ok (.ok (some i', ⟨ks ++ dq, cap'⟩), s') ∧
      Peeled umax s w [i] f (leftmost (w.halfPath f · sd) (j + 1) p) (unroll (w.halfPath f · sd) (w.halfPath f · sd.other) (j + 1) p) i' ks s' w' := by
  obtain ⟨s1, w1, e1, M1, g1, g2, l1⟩ := split_step R hi sd
  have hlt := World.get_lt hi
  obtain ⟨i', ks, cap', s2, w2, e2, P⟩ := ih M1.rel g2 (i :: dq) cap
  have hlt2 : i < w1.hs.length := by omega
  have hni : ∀ k ∈ i' :: ks, k ≠ i := by
    intro k hk
    rcases P.from_ k hk with h | h
    · simp at h; omega
    · omega
  have h2 : ∀ t, (w1.halfPath f · t) = (w.halfPath f · t) := fun t => funext fun q => halfPath_fams M1.fams f q t
  refine ⟨i', ks ++ [i], cap', s2, w2, ?_, ?_⟩
  · rw [pm_bind e1, List.append_assoc]; exact e2
  · refine ⟨M1.trans P.mv (by intro k hk; simp at hk; right; omega), ?_, ?_, ?_, ?_⟩
    · simp only [leftmost]; have := P.item; rw [h2] at this; exact this
    · simp only [unroll]
      have := P.rest
      rw [h2, h2] at this
      refine this.append ?_
      show [w2.get i] = _
      rw [P.mv.frame i hlt2 (by simp; omega), g1]; rfl
    · intro k hk
      simp only [List.mem_cons, List.mem_append, List.not_mem_nil, or_false] at hk
      rcases hk with rfl | hk | rfl
      · rcases P.from_ k (by simp) with h | h
        · simp at h; right; omega
        · right; omega
      · rcases P.from_ k (by simp [hk]) with h | h
        · simp at h; right; omega
        · right; omega
      · left; simp
    · rw [← List.cons_append, List.nodup_append]
      refine ⟨P.nodup, by simp, ?_⟩
      intro a ha b hb
      simp at hb; subst hb; exact hni a ha

theorem peel_some (sd : Side) (f j : Nat) : PeelSome (α := α) umax sd f j := by
  induction j with
  | zero =>
    intro s w R i p hi dq cap
    refine ⟨i, [], cap, s, w, ?_, .refl R _, hi, rfl, by simp, by simp⟩
    rw [BinaryPartsIter.frontLoop]; rfl
  | succ j ih =>
    intro s w R i p hi dq cap
    have hp := Nat.two_pow_pos j
    rw [BinaryPartsIter.frontLoop, dif_neg (by rw [Nat.pow_succ]; omega), and1, if_pos (by rw [Nat.pow_succ]; omega), shr1,
      show 2 ^ (j + 1) / 2 = 2 ^ j by rw [Nat.pow_succ]; omega]
    exact peel_bind sd f j ih R hi dq _

theorem peel_none (R : Rel umax s w []) (sd : Side) (f : Nat) (j : Nat) {x : Nat} {p : List Side} (hx : w.get x = some (.shared f p)) (dq : List Nat) (cap : Nat) :
    ∃ i' ks cap' s' w', (BinaryPartsIter.frontLoop (splitOffK umax sd) (2 ^ (j + 1)) none ⟨x :: dq, cap⟩ : PM α _) s =
        .ok (.ok (some i', ⟨ks ++ dq, cap'⟩), s') ∧
      Peeled umax s w [x] f (leftmost (w.halfPath f · sd) (j + 1) p) (unroll (w.halfPath f · sd) (w.halfPath f · sd.other) (j + 1) p) i' ks s' w' := by
  have hp := Nat.two_pow_pos j
  rw [BinaryPartsIter.frontLoop, dif_neg (by rw [Nat.pow_succ]; omega), and1, if_pos (by rw [Nat.pow_succ]; omega), shr1,
    show 2 ^ (j + 1) / 2 = 2 ^ j by rw [Nat.pow_succ]; omega]
  exact peel_bind sd f j (peel_some sd f j) R hx dq cap

/-! ## The iterator -/

/-- The iterator has yielded `f` and `b` of the `2^m` parts of member `q`. -/
structure ItAt (umax : Nat) (w : World α) (fam : Nat) (q : List Side) (m f b : Nat) (it : BinaryPartsIter Nat) : Prop where
  num : it.numParts = 2 ^ m
  front : it.numYieldedFront = f
  back : it.numYieldedBack = b
  le : f + b ≤ 2 ^ m
  fits : 2 ^ m ≤ umax
  fam_lt : fam < w.fams.length
  at_ : Ats w fam it.deque.items (pend (w.halfPath fam · .L) (w.halfPath fam · .R) m f b q)

/-- A part has left an iterator. -/
structure Yield (umax : Nat) (s : State α) (w : World α) (it : BinaryPartsIter Nat) (fam : Nat) (q : List Side) (m f b i : Nat)
    (k : Nat) (it' : BinaryPartsIter Nat) (s' : State α) (w' : World α) : Prop where
  mv : Mv umax s w it.deque.items s' w'
  item : ∃ q', w'.get k = some (.shared fam q') ∧ (parts (w.halfPath fam · .L) (w.halfPath fam · .R) m q)[i]? = some q'
  now : ItAt umax w' fam q m f b it'
  from_ : ∀ k' ∈ k :: it'.deque.items, k' ∈ it.deque.items ∨ w.hs.length ≤ k'
  nodup : (k :: it'.deque.items).Nodup

theorem Mv.mono {s' : State α} {w' : World α} {src src' : List Nat} (M : Mv umax s w src s' w') (h : ∀ k ∈ src, k ∈ src') : Mv umax s w src' s' w' :=
  ⟨by
    obtain ⟨ops, os, e, f, u⟩ := M.runs
    exact ⟨ops, os, e, f, fun op ho k hk => (u op ho k hk).imp (h k) id⟩, M.rel, fun k h1 h2 => M.frame k h1 fun h3 => h2 (h k h3), M.fams, M.len, M.items, M.mem⟩

theorem nodup_reverse {l : List Nat} : l.reverse.Nodup ↔ l.Nodup := by
  simp only [List.Nodup, List.pairwise_reverse, ne_eq, eq_comm]

theorem next_sim (R : Rel umax s w []) {it : BinaryPartsIter Nat} {fam m f b : Nat} {q : List Side} (I : ItAt umax w fam q m f b it)
    (hnd : it.deque.items.Nodup) (hfb : f + b < 2 ^ m) :
    ∃ k it' s' w', (BinaryPartsIter.next (splitOffK umax .L) umax false it : PM α _) s = .ok (.ok (some k, it'), s') ∧
      Yield umax s w it fam q m (f + 1) b f k it' s' w' := by
  obtain ⟨np, nf, nb, ⟨ks, cap⟩⟩ := it
  obtain ⟨i1, i2, i3, i4, i5, i8, i6⟩ := I
  simp only at i1 i2 i3 i6 hnd
  subst i1 i2 i3
  obtain ⟨j, x, rest, h1, h2, h3, h4⟩ := pend_front (w.halfPath fam · .L) (w.halfPath fam · .R) m nf nb q hfb
  obtain ⟨n, j', g1, g2, g3⟩ := maxPow_exists (m := PM α) (2 ^ m - nf) (2 ^ m - nf - nb) (by omega) (by omega)
  have hj := g3.unique h2
  subst hj
  rw [h1] at i6
  cases ks with
  | nil => simp [Ats] at i6
  | cons y dq =>
    have hy : w.get y = some (.shared fam x) := by simp only [Ats, List.map_cons, List.cons.injEq] at i6; exact i6.1
    have hdq : Ats w fam dq rest := by simp only [Ats, List.map_cons, List.cons.injEq] at i6; exact i6.2
    unfold BinaryPartsIter.next
    rw [BinaryPartsIter.len_eq _ (by simp; omega)]
    simp only [pure_bind, Bool.false_and, Bool.false_eq_true, if_false]
    rw [if_neg (by omega)]
    rw [show subU (m := PM α) (2 ^ m) nf = pure (2 ^ m - nf) by unfold subU; rw [if_pos (by omega)]]
    simp only [pure_bind, g1, g2, addU, show nf + 1 ≤ umax by omega, if_true]
    cases j' with
    | zero =>
      refine ⟨y, ⟨2 ^ m, nf + 1, nb, ⟨dq, cap⟩⟩, s, w, ?_, .refl R _, ⟨x, hy, h4⟩, ⟨rfl, rfl, rfl, by omega, i5, i8, ?_⟩, ?_, ?_⟩
      · rw [Nat.pow_zero, BinaryPartsIter.frontLoop_one]; rfl
      · rw [h3]; exact hdq
      · intro k hk; exact .inl hk
      · exact hnd
    | succ j' =>
      obtain ⟨i', ks, cap', s', w', e, P⟩ := peel_none R .L fam j' hy dq cap
      have hx : ∀ t, (w'.halfPath fam · t) = (w.halfPath fam · t) := fun t => funext fun q => halfPath_fams P.mv.fams fam q t
      have hlt : ∀ k ∈ dq, k < w.hs.length := fun k hk => hdq.lt hk
      have hyd : y ∉ dq := (List.nodup_cons.1 hnd).1
      refine ⟨i', ⟨2 ^ m, nf + 1, nb, ⟨ks ++ dq, cap'⟩⟩, s', w', ?_, P.mv.mono (by simp), ⟨_, P.item, h4⟩, ⟨rfl, rfl, rfl, by omega, i5, by rw [P.mv.fams]; exact i8, ?_⟩, ?_, ?_⟩
      · rw [pm_bind e]; rfl
      · rw [hx, hx, h3]
        refine P.rest.append (hdq.frame fun k hk => P.mv.frame k (hlt k hk) ?_)
        rintro h; simp at h; subst h; exact hyd hk
      · intro k hk
        simp only [List.mem_cons, List.mem_append] at hk ⊢
        rcases hk with rfl | hk | hk
        · have := P.from_ k (by simp); simp at this; grind
        · have := P.from_ k (by simp [hk]); simp at this; grind
        · grind
      · show (i' :: (ks ++ dq)).Nodup
        rw [← List.cons_append, List.nodup_append]
        refine ⟨P.nodup, (List.nodup_cons.1 hnd).2, ?_⟩
        rintro a ha b hb rfl
        have h5 := hlt a hb
        rcases P.from_ a ha with h | h
        · simp at h; subst h; exact hyd hb
        · omega

theorem nextBack_sim (R : Rel umax s w []) {it : BinaryPartsIter Nat} {fam m f b : Nat} {q : List Side} (I : ItAt umax w fam q m f b it)
    (hnd : it.deque.items.Nodup) (hfb : f + b < 2 ^ m) :
    ∃ k it' s' w', (BinaryPartsIter.nextBack (splitOffK umax .R) umax false it : PM α _) s = .ok (.ok (some k, it'), s') ∧
      Yield umax s w it fam q m f (b + 1) (2 ^ m - 1 - b) k it' s' w' := by
  obtain ⟨np, nf, nb, ⟨ks, cap⟩⟩ := it
  obtain ⟨i1, i2, i3, i4, i5, i8, i6⟩ := I
  simp only at i1 i2 i3 i6 hnd
  subst i1 i2 i3
  obtain ⟨j, x, rest, h1, h2, h3, h4⟩ := pend_front (w.halfPath fam · .R) (w.halfPath fam · .L) m nb nf q (by omega)
  obtain ⟨n, j', g1, g2, g3⟩ := maxPow_exists (m := PM α) (2 ^ m - nb) (2 ^ m - nb - nf) (by omega) (by omega)
  have hj := g3.unique h2
  subst hj
  have h4' : (parts (w.halfPath fam · .L) (w.halfPath fam · .R) m q)[2 ^ m - 1 - nb]? = some (leftmost (w.halfPath fam · .R) j' x) := by
    rw [parts_mirror, List.getElem?_reverse (by rw [parts_length]; omega), parts_length, ← h4]
    congr 1; omega
  have i7 : Ats w fam ks.reverse (x :: rest) := by
    rw [pend_mirror, h1] at i6
    simp only [Ats, List.map_reverse] at i6 ⊢
    rw [i6, List.reverse_reverse]
  obtain ⟨ys, rfl⟩ : ∃ ys, ks = ys.reverse := ⟨ks.reverse, by simp⟩
  rw [List.reverse_reverse] at i7
  rw [nodup_reverse] at hnd
  clear i6
  cases ys with
  | nil => simp [Ats] at i7
  | cons y dq =>
    have hy : w.get y = some (.shared fam x) := by simp only [Ats, List.map_cons, List.cons.injEq] at i7; exact i7.1
    have hdq : Ats w fam dq rest := by simp only [Ats, List.map_cons, List.cons.injEq] at i7; exact i7.2
    have rev : ∀ {w : World α} {ks : List Nat} {ps : List (List Side)}, Ats w fam ks ps → Ats w fam ks.reverse ps.reverse := by
      intro w ks ps h; simp only [Ats, List.map_reverse] at *; rw [h]
    unfold BinaryPartsIter.nextBack
    rw [BinaryPartsIter.len_eq _ (by simp; omega)]
    simp only [pure_bind, Bool.false_and, Bool.false_eq_true, if_false]
    rw [if_neg (by omega)]
    rw [show subU (m := PM α) (2 ^ m) nb = pure (2 ^ m - nb) by unfold subU; rw [if_pos (by omega)]]
    rw [show 2 ^ m - nf - nb = 2 ^ m - nb - nf by omega]
    simp only [pure_bind, g1, g2, addU, show nb + 1 ≤ umax by omega, if_true, BinaryPartsIter.backLoop_mirror]
    cases j' with
    | zero =>
      refine ⟨y, ⟨2 ^ m, nf, nb + 1, ⟨dq.reverse, cap⟩⟩, s, w, ?_, .refl R _, ⟨x, hy, h4'⟩, ⟨rfl, rfl, rfl, by omega, i5, i8, ?_⟩, ?_, ?_⟩
      · rw [Nat.pow_zero, BinaryPartsIter.frontLoop_one]; simp; rfl
      · rw [pend_mirror, h3]; exact rev hdq
      · intro k hk; left; simp at hk ⊢; exact hk.symm
      · show (y :: dq.reverse).Nodup
        simp only [List.nodup_cons, List.mem_reverse, nodup_reverse] at hnd ⊢; exact hnd
    | succ j' =>
      obtain ⟨i', ks, cap', s', w', e, P⟩ := peel_none R .R fam j' hy dq cap
      have hx : ∀ t, (w'.halfPath fam · t) = (w.halfPath fam · t) := fun t => funext fun q => halfPath_fams P.mv.fams fam q t
      have hlt : ∀ k ∈ dq, k < w.hs.length := fun k hk => hdq.lt hk
      have hyd : y ∉ dq := (List.nodup_cons.1 hnd).1
      have hnd2 : (i' :: (ks ++ dq)).Nodup := by
        rw [← List.cons_append, List.nodup_append]
        refine ⟨P.nodup, (List.nodup_cons.1 hnd).2, ?_⟩
        rintro a ha b hb rfl
        have h5 := hlt a hb
        rcases P.from_ a ha with h | h
        · simp at h; subst h; exact hyd hb
        · omega
      refine ⟨i', ⟨2 ^ m, nf, nb + 1, ⟨(ks ++ dq).reverse, cap'⟩⟩, s', w', ?_, P.mv.mono (by simp), ⟨_, P.item, h4'⟩, ⟨rfl, rfl, rfl, by omega, i5, by rw [P.mv.fams]; exact i8, ?_⟩, ?_, ?_⟩
      · rw [map_eq_pure_bind, bind_assoc, pm_bind e]; rfl
      · rw [hx, hx, pend_mirror, h3]
        refine rev (P.rest.append (hdq.frame fun k hk => P.mv.frame k (hlt k hk) ?_))
        rintro h; simp at h; subst h; exact hyd hk
      · intro k hk
        simp only [List.mem_cons, List.mem_append, List.mem_reverse] at hk ⊢
        rcases hk with rfl | hk | hk
        · have := P.from_ k (by simp); simp at this; grind
        · have := P.from_ k (by simp [hk]); simp at this; grind
        · grind
      · show (i' :: (ks ++ dq).reverse).Nodup
        simp only [List.nodup_cons, List.mem_reverse, nodup_reverse] at hnd2 ⊢; exact hnd2

end
end Verif.Rc
