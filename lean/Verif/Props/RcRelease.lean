import Verif.Props.RcFrame
import Verif.Rc.Proofs.Tight
/-!
# Iterators, rejected splits, and empty handles (C32-C34, C43)
-/

namespace Verif
open Spec Rc
variable {α : Type} {umax : Nat} {zst : Bool} {ops : List (Op α)} {s : State α}

/-! ## C32 -/

/-- C32: dropping a unique slice, an item iterator or a parts iterator drops exactly the items
it shows, which for iterators are those not yet yielded; every other item, in particular the
ones that were yielded, is left as it is. -/
theorem C32_drop_rest {k : Nat} {x : Handle} {s' : State α} (h : after umax zst ops = .ok s) (hk : s.get k = some x)
    (hx : ∀ d i, x ≠ .strong d i) (h' : after umax zst (ops ++ [.drop k]) = .ok s') (b i : Nat) :
    (s.Sees umax k b i → s'.h.slot b i = .dropped) ∧ (¬ s.Sees umax k b i → s'.h.slot b i = s.h.slot b i) := by
  have R := Rel.of_after h
  have R' := Rel.of_after h'
  obtain ⟨y, hy⟩ : ∃ y, (World.after umax zst ops).get k = some y := by
    rcases R.at_ k with ⟨e, _⟩ | ⟨_, y, _, e2, _⟩
    · rw [hk] at e; cases e
    · exact ⟨y, e2⟩
  have ew : World.after umax zst (ops ++ [.drop k]) = ((World.after umax zst ops).del k).settle := by
    rw [World.after_snoc]; simp only [World.call, World.act, hy]
  have hi : s'.h.slot b i = ((World.after umax zst ops).del k).settle.items b i := by rw [← R'.core.items, ew]
  constructor
  · intro hs
    obtain ⟨a, ha⟩ := (C15_alive_iff_shown h b i).2 ⟨k, hs⟩
    rw [← R.core.items] at ha
    rw [hi]
    have : ((World.after umax zst ops).del k).anyHand (((World.after umax zst ops).del k).covers b i) = false := by
      rw [← Bool.not_eq_true, World.anyHand_iff]
      rintro ⟨k', y', z1, z2⟩
      obtain ⟨z3, z4⟩ := World.get_del_iff.1 z1
      exact z3 (C21_unique h hk hx hs (R.sees_iff.2 ⟨y', z4, z2⟩))
    simp only [World.settle, this]
    show (match (World.after umax zst ops).items b i with | .live a => _ | x => _) = _
    rw [ha]; rfl
  · intro hs
    rw [hi, ← R.core.items]
    cases hl : (World.after umax zst ops).items b i with
    | live a =>
      obtain ⟨k', hk'⟩ := (C15_alive_iff_shown h b i).1 ⟨a, by rw [← R.core.items]; exact hl⟩
      obtain ⟨y', y1, y2⟩ := R.sees_iff.1 hk'
      have hne : k' ≠ k := by rintro rfl; exact hs hk'
      rw [World.settle_live ((World.after umax zst ops).del k) (k := k') (x := y') (by rw [World.get_del_ne hne]; exact y1) y2]; exact hl
    | _ => simp only [World.settle, World.del, hl]

/-- C32: an item that an iterator yields was shown by it, and is the caller's from then on: it is
neither alive in the buffer, nor dropped, and nothing is ever done to it again. -/
theorem C32_yielded {k : Nat} {e : End} {a : α} {more : List (Op α)} {s' : State α} (h : after umax zst ops = .ok s)
    (hy : answer umax zst ops (.next e k) = .ok (.item a)) (h' : after umax zst (ops ++ .next e k :: more) = .ok s') :
    ∃ b i, s.Sees umax k b i ∧ s.h.slot b i = .live a ∧ s'.h.slot b i = .moved := by
  obtain ⟨s1, h1, R1⟩ := after_rel umax zst (ops ++ [.next e k])
  have R := Rel.of_after h
  rw [answer_eq] at hy
  cases hk : (World.after umax zst ops).get k with
  | none => simp only [World.act, hk] at hy; cases hy
  | some y =>
    cases y with
    | iter b r hh =>
      simp only [World.act, hk] at hy
      split at hy
      · cases hy
      · next hne =>
        have e3 : ops ++ .next e k :: more = ops ++ [.next e k] ++ more := by simp
        rw [e3] at h'
        have key : ∀ i, r.has i = true → (World.after umax zst ops).items b i = .live a →
            (World.after umax zst (ops ++ [.next e k])).items b i = .moved →
            ∃ b i, s.Sees umax k b i ∧ s.h.slot b i = .live a ∧ s'.h.slot b i = .moved := by
          intro i hr ha hm
          rw [R1.core.items] at hm
          exact ⟨b, i, (R.sees_of hk).2 (by simp [World.covers, hr]), by rw [← R.core.items]; exact ha,
            by rw [C15_once h1 (.inr hm) more h', hm]⟩
        rw [World.after_snoc] at key
        cases e with
        | front =>
          simp only at hy
          split at hy
          · next a' ha =>
            cases hy
            refine key r.off (by simp [Rng.has]; omega) ha ?_
            simp only [World.call, World.act, hk, if_neg hne, ha]
            simp [World.settle, World.put, World.store]
          · cases hy
        | back =>
          simp only at hy
          split at hy
          · next a' ha =>
            cases hy
            refine key (r.off + r.len - 1) (by simp [Rng.has]; omega) ha ?_
            simp only [World.call, World.act, hk, if_neg hne, ha]
            simp [World.settle, World.put, World.store]
          · cases hy
    | _ => simp only [World.act, hk] at hy; cases hy

/-- Three items; the first is yielded, then the iterator is dropped. -/
example : answer 100 false [.mutNew [1, 2, 3], .intoIter 0] (.next .front 0) = .ok (.item 1) ∧
    (after 100 false [.mutNew [1, 2, 3], .intoIter 0, .next .front 0, .drop 0]).map (fun s => (List.range 3).map (s.h.slot 0)) =
      .ok [.moved, .dropped, .dropped] ∧
    -- four parts; the second of them is still held
    (after 100 false [.mutNew [1, 2, 3, 4], .intoParts 0 4, .nextPart .front 0, .nextPart .front 0, .drop 1, .drop 0]).map
      (fun s => (List.range 4).map (s.h.slot 0)) = .ok [.dropped, .live 2, .dropped, .dropped] := ⟨rfl, rfl, by with_unfolding_all rfl⟩

/-! ## C33 -/

theorem after_code_eq {op op' : Op α} (h : after umax zst ops = .ok s)
    (e : (call umax s op).map (·.1) = (call umax s op').map (·.1)) : after umax zst (ops ++ [op]) = after umax zst (ops ++ [op']) := by
  rw [after_snoc_code umax zst ops _ h, after_snoc_code umax zst ops _ h, e]

/-- C33: when `split_into_parts` panics, which is when the number is not a power of two, the
state is exactly the one after dropping the slice. -/
theorem C33_panic_is_drop {k n : Nat} {r : Reg} (h : after umax zst ops = .ok s) (hk : s.get k = some (.uniq r)) (hn : n ≤ umax)
    (hp : ∀ m, n ≠ 2 ^ m) : answer umax zst ops (.intoParts k n) = .ok .panicked ∧
      after umax zst (ops ++ [.intoParts k n]) = after umax zst (ops ++ [.drop k]) := by
  have hnew : ∃ f, SliceItemsParts.new ⟨r.off, r.len⟩ n = .error f := by
    rcases SliceItemsParts.new_cases ⟨r.off, r.len⟩ n with ⟨⟨m, e⟩, _⟩ | ⟨_, e⟩
    · exact absurd e (hp m)
    · exact ⟨_, e⟩
  obtain ⟨f, hf⟩ := hnew
  refine ⟨?_, after_code_eq h ?_⟩
  · rw [answer_eq]
    simp only [World.act, uniq_hand h hk, if_pos hn, if_neg (hp n.log2)]
  · simp only [call, exec, hk, if_pos hn, hf, dropHandle, bind, Except.bind, pure, Except.pure]
    cases drain (fuelFor (s.del k).h [.dropReg r]) (s.del k).h [.dropReg r] <;> rfl

/-- C33: otherwise the parts iterator replaces the slice and shows the same items. -/
theorem C33_accepted {k m : Nat} {r : Reg} {s' : State α} (h : after umax zst ops = .ok s) (hk : s.get k = some (.uniq r)) (hn : 2 ^ m ≤ umax)
    (h' : after umax zst (ops ++ [.intoParts k (2 ^ m)]) = .ok s') :
    answer umax zst ops (.intoParts k (2 ^ m)) = .ok .done ∧ (∃ b al it, s'.get k = some (.parts b al it)) ∧
    s'.h.slot = s.h.slot ∧ s'.h.sk.mem = s.h.sk.mem ∧ ∀ k' b i, s'.Sees umax k' b i ↔ s.Sees umax k' b i := by
  have R := Rel.of_after h
  have R' := Rel.of_after h'
  have hw := uniq_hand h hk
  have hlog : (2 ^ m).log2 = m := Nat.log2_two_pow
  have ew : World.after umax zst (ops ++ [.intoParts k (2 ^ m)]) =
      ((World.after umax zst ops).put k (.parts r.buf (rparts m ⟨r.off, r.len⟩) r.alloc.isSome)).settle := by
    rw [World.after_snoc]; simp only [World.call, World.act, hw, if_pos hn, hlog, if_true]
  generalize hw0 : World.after umax zst ops = w at *
  have g1 := World.get_put_self hw (.parts r.buf (rparts m ⟨r.off, r.len⟩) r.alloc.isSome)
  have c1 : ∀ b i, w.covers b i (.parts r.buf (rparts m ⟨r.off, r.len⟩) r.alloc.isSome) =
      w.covers b i (.uniq r.buf ⟨r.off, r.len⟩ r.alloc.isSome) := by
    intro b i
    have := (rparts_tiles m ⟨r.off, r.len⟩).any_has i
    simp only [World.covers]
    congr 1
    rw [Bool.eq_iff_iff, this]; simp [Rng.has]
  have hcov : ∀ k' b i, (∃ y, (w.put k (.parts r.buf (rparts m ⟨r.off, r.len⟩) r.alloc.isSome)).get k' = some y ∧
      (w.put k (.parts r.buf (rparts m ⟨r.off, r.len⟩) r.alloc.isSome)).covers b i y = true) ↔ ∃ y, w.get k' = some y ∧ w.covers b i y = true := by
    intro k' b i
    show (∃ y, _ ∧ w.covers b i y = true) ↔ _
    by_cases e : k' = k
    · subst e; simp only [g1, hw, Option.some.injEq, exists_eq_left', c1]
    · rw [World.get_put_ne _ e]
  have hs := settle_same R rfl (w' := w.put k (.parts r.buf (rparts m ⟨r.off, r.len⟩) r.alloc.isSome)) rfl rfl
    (by rintro b i ⟨k', y, y1, y2⟩; obtain ⟨y', z1, z2⟩ := (hcov k' b i).2 ⟨y, y1, y2⟩; exact ⟨k', y', z1, z2⟩)
    (by
      rintro b ⟨k', y, y1, y2⟩
      by_cases e : k' = k
      · subst e; rw [hw] at y1; cases y1; exact ⟨k', _, g1, y2⟩
      · exact ⟨k', y, by rw [World.get_put_ne _ e]; exact y1, y2⟩)
  rw [ew] at R'
  refine ⟨by rw [answer_eq, hw0]; simp only [World.act, hw, if_pos hn, hlog, if_true], ?_, ?_, ?_, ?_⟩
  · rcases R'.at_ k with ⟨_, e⟩ | ⟨x, y, e1, e2, hr⟩
    · rw [World.settle_get, g1] at e; cases e
    · rw [World.settle_get, g1] at e2
      generalize hy : (Hand.parts r.buf (rparts m ⟨r.off, r.len⟩) r.alloc.isSome) = y0 at e2
      cases e2
      cases hr with
      | parts b al _ _ _ _ _ _ _ => exact ⟨b, al, _, e1⟩
      | _ => cases hy
  · rw [← R'.core.items, ← R.core.items]; exact hs.1
  · rw [← R'.core.mem, ← R.core.mem]; exact hs.2
  · intro k' b i; rw [R'.sees_iff, R.sees_iff]; exact hcov k' b i

example : answer 100 false [.mutNew [1, 2, 3]] (.intoParts 0 3) = .ok .panicked ∧
    (after 100 false [.mutNew [1, 2, 3], .intoParts 0 3]).map (fun s => (s.h.slot 0 0, s.h.slot 0 2, s.h.sk.mem 0)) =
      .ok (.dropped, .dropped, false) ∧ (∀ m, 3 ≠ 2 ^ m) := by
  refine ⟨by with_unfolding_all rfl, by with_unfolding_all rfl, fun m h => ?_⟩
  rcases m with _ | _ | m
  · cases h
  · cases h
  · rw [Nat.pow_succ, Nat.pow_succ] at h; omega

/-! ## C34 -/

/-- C34 fails: `split_off_right` of a unique slice with one item returns the item and leaves an
empty slice, which goes on holding the memory when the item is gone. -/
theorem C34_fails : ∃ ops : List (Op Nat), ∃ s, after 100 false ops = .ok s ∧ s.h.sk.mem 0 = true ∧ (∀ k b i, ¬ s.Sees 100 k b i) ∧
    answer 100 false ops (.read 0) = .ok (.items []) ∧ s.get 0 = some (.uniq ⟨0, 0, 0, some 0⟩) := by
  obtain ⟨s, h, R⟩ := after_rel 100 false [Op.mutNew [7], .splitOff .R 0, .drop 1]
  have hm : (after 100 false [Op.mutNew [7], .splitOff .R 0, .drop 1]).map (fun s => (s.h.sk.mem 0, s.get 0)) =
    .ok (true, some (.uniq ⟨0, 0, 0, some 0⟩)) := rfl
  rw [h] at hm
  simp only [Except.map, Except.ok.injEq, Prod.mk.injEq] at hm
  refine ⟨_, s, h, hm.1, ?_, rfl, hm.2⟩
  intro k b i hs
  obtain ⟨y, y1, y2⟩ := R.sees_iff.1 hs
  have e : (World.after 100 false [Op.mutNew [7], .splitOff .R 0, .drop 1]).hs = [some (.uniq 0 ⟨0, 0⟩ true), none] := rfl
  rw [World.get, e] at y1
  rcases k with _ | _ | k
  · cases y1; simp [World.covers, Rng.has] at y2
  · cases y1
  · cases y1

/-- The history never calls `split_off_right` on a unique slice of one item. -/
def NoSplitOne (umax : Nat) (zst : Bool) (ops : List (Op α)) : Prop :=
  ∀ pre k s r, pre ++ [.splitOff .R k] <+: ops → after umax zst pre = .ok s → s.get k = some (.uniq r) → r.len ≠ 1

theorem tight_after (ops : List (Op α)) (hn : NoSplitOne umax zst ops) : (World.after umax zst ops).Tight := by
  suffices ∀ l pre : List (Op α), pre ++ l = ops → (World.after umax zst pre).Tight → (World.after umax zst ops).Tight by
    refine this ops [] rfl ?_
    intro k y hy
    simp [World.after, World.run, World.get, World.empty] at hy
  intro l
  induction l with
  | nil => intro pre e t; rw [List.append_nil] at e; rw [← e]; exact t
  | cons op l ih =>
    intro pre e t
    refine ih (pre ++ [op]) (by rw [← e]; simp) ?_
    rw [World.after_snoc]
    obtain ⟨s, h, R⟩ := after_rel umax zst pre
    refine World.act_tight umax R.wf t ?_
    rintro ⟨k, b, r, hh, rfl, hk, hr⟩
    rcases R.at_ k with ⟨_, e⟩ | ⟨x, y, e1, e2, hrel⟩
    · rw [hk] at e; cases e
    · rw [hk] at e2; cases e2
      cases hrel with
      | uniq r' _ => exact hn pre k s r' ⟨l, by rw [← e]; simp⟩ h e1 hr

/-- C34 except for the case of `C34_fails`: in every other history the memory is gone when the
last handle that shows an item is gone; empty handles keep nothing. Missing: histories that
call `split_off_right` on a unique slice of one item. -/
theorem C34_empty_keeps_nothing_partial (h : after umax zst ops = .ok s) (hn : NoSplitOne umax zst ops) {b : Nat} (hm : s.h.sk.mem b = true) :
    ∃ k i, s.Sees umax k b i := by
  have R := Rel.of_after h
  have I : Inv s.h (tabToks umax s.hs) := by simpa using R.inv
  obtain ⟨k, y, y1, y2⟩ := World.anyHand_iff.1 ((hold_iff R b).1 (I.mem_hold (tabToks_quiet umax s.hs) hm))
  obtain ⟨i, hi⟩ := (tight_after ops hn).covers y1 y2
  exact ⟨k, i, R.sees_iff.2 ⟨y, y1, hi⟩⟩

/-- C34, handle by handle, with the same exception: an empty unique slice or iterator has no
reference to the allocation. -/
theorem C34_empty_has_no_alloc_partial (h : after umax zst ops = .ok s) (hn : NoSplitOne umax zst ops) {k : Nat} {r : Reg}
    (hk : s.get k = some (.uniq r) ∨ s.get k = some (.iter r)) (hr : r.len = 0) : r.alloc = none := by
  have R := Rel.of_after h
  have t := tight_after ops hn
  rw [← Option.not_isSome_iff_eq_none]
  intro hs
  rcases R.at_ k with ⟨e, _⟩ | ⟨x, y, e1, e2, hrel⟩
  · rcases hk with hk | hk <;> (rw [hk] at e; cases e)
  · rcases hk with hk | hk
    · rw [hk] at e1; cases e1
      cases hrel with
      | uniq _ _ => have : 0 < r.len := t _ _ e2 hs; omega
    · rw [hk] at e1; cases e1
      cases hrel with
      | iter _ _ => have : 0 < r.len := t _ _ e2 hs; omega

example : NoSplitOne 100 false [.rcNew [1, 2], .splitOff .R 0, .intoMut 1, .cloneSide .L 0, .drop 0] := by
  rintro pre k s r ⟨l, e⟩ h hk
  have h2 : ∃ pre' : List (Op Nat), pre ++ .splitOff .R k :: l = [.rcNew [1, 2], .splitOff .R 0, .intoMut 1, .cloneSide .L 0, .drop 0] := ⟨[], by rw [← e]; simp⟩
  obtain ⟨_, h2⟩ := h2
  rcases pre with _ | ⟨o, _ | ⟨o2, _ | ⟨o3, _ | ⟨o4, _ | ⟨o5, pre⟩⟩⟩⟩⟩ <;> simp at h2
  obtain ⟨rfl, rfl, _⟩ := h2
  have : after 100 false [.rcNew [1, 2]] = .ok s := h
  have h3 : (after 100 false [.rcNew [1, 2]]).map (fun s => s.get 0) = .ok (some (.strong 1 3)) := rfl
  rw [this] at h3
  simp only [Except.map, Except.ok.injEq] at h3
  rw [h3] at hk; cases hk

/-! ## C43 -/

/-- C43: a unique slice or item iterator that still has an item of nonzero size refers to the
allocation, and its memory is there. -/
theorem C43_needed (h : after umax false ops = .ok s) {k : Nat} {r : Reg} (hk : s.get k = some (.uniq r) ∨ s.get k = some (.iter r)) (hr : 0 < r.len) :
    r.alloc.isSome = true ∧ s.h.sk.mem r.buf = true := by
  have R := Rel.of_after h
  have hz : (World.after umax false ops).zst = false := by
    have : ∀ (ops : List (Op α)) (w : World α), (w.run umax ops).1.zst = w.zst := by
      intro ops
      induction ops with
      | nil => exact fun _ => rfl
      | cons op ops ih => intro w; exact (ih _).trans (World.act_zst umax w op)
    exact this ops _
  have key : ∀ y, (World.after umax false ops).get k = some y → (World.after umax false ops).covers r.buf r.off y = true →
      (World.after umax false ops).keeps r.buf y = true ∧ s.h.sk.mem r.buf = true := by
    intro y h1 h2
    have h3 := R.wf.keeps h1 h2 hz
    exact ⟨h3, (C17_memory_iff_kept h r.buf).2 ⟨k, y, h1, h3⟩⟩
  have hh : (Rng.mk r.off r.len).has r.off = true := by simp [Rng.has, hr]
  rcases R.at_ k with ⟨e, _⟩ | ⟨x, y, e1, e2, hrel⟩
  · rcases hk with hk | hk <;> (rw [hk] at e; cases e)
  · rcases hk with hk | hk
    · rw [hk] at e1; cases e1
      cases hrel with
      | uniq _ _ =>
        have := key _ e2 (by simp [World.covers, hh])
        simpa [World.keeps] using this
    · rw [hk] at e1; cases e1
      cases hrel with
      | iter _ _ =>
        have := key _ e2 (by simp [World.covers, hh])
        simpa [World.keeps] using this

/-- C43: the same for parts iterators. -/
theorem C43_needed_parts (h : after umax false ops = .ok s) {k b : Nat} {al : Option Nat} {it : SliceItemsParts}
    (hk : s.get k = some (.parts b al it)) {i : Nat} (hs : s.Sees umax k b i) : al.isSome = true ∧ s.h.sk.mem b = true := by
  have R := Rel.of_after h
  have hz : (World.after umax false ops).zst = false := by
    have : ∀ (ops : List (Op α)) (w : World α), (w.run umax ops).1.zst = w.zst := by
      intro ops
      induction ops with
      | nil => exact fun _ => rfl
      | cons op ops ih => intro w; exact (ih _).trans (World.act_zst umax w op)
    exact this ops _
  rcases R.at_ k with ⟨e, _⟩ | ⟨x, y, e1, e2, hrel⟩
  · rw [hk] at e; cases e
  · rw [hk] at e1; cases e1
    have h3 := R.wf.keeps e2 ((R.sees_of e2).1 hs) hz
    refine ⟨?_, (C17_memory_iff_kept h b).2 ⟨k, y, e2, h3⟩⟩
    cases hrel with
    | parts _ _ _ _ _ _ _ _ _ => simpa [World.keeps] using h3

/-- C43: an item iterator gives its reference up in the call that takes its last item, and in
any case when it says `None`. -/
theorem C43_released {k : Nat} {e : End} {r : Reg} {s' : State α} (_h : after umax zst ops = .ok s)
    (h' : after umax zst (ops ++ [.next e k]) = .ok s') (hk : s'.get k = some (.iter r)) (hr : r.len = 0) : r.alloc = none := by
  have R' := Rel.of_after h'
  rw [← Option.not_isSome_iff_eq_none]
  intro hs
  rcases R'.at_ k with ⟨e1, _⟩ | ⟨x, y, e1, e2, hrel⟩
  · rw [hk] at e1; cases e1
  · rw [hk] at e1; cases e1
    cases hrel with
    | iter _ _ =>
      rw [World.after_snoc, World.call, World.settle_get] at e2
      cases hw : (World.after umax zst ops).get k with
      | none => simp only [World.act, hw] at e2; cases e2
      | some y =>
        cases y with
        | iter b q hh =>
          simp only [World.act, hw] at e2
          split at e2
          · rw [World.get_put_self hw] at e2
            simp only [Option.some.injEq, Hand.iter.injEq] at e2
            rw [← e2.2.2] at hs; cases hs
          · next hne =>
            split at e2
            · rw [World.get_put_self (w := (World.after umax zst ops).store _ _ _) hw] at e2
              simp only [Option.some.injEq, Hand.iter.injEq] at e2
              rw [← e2.2.2] at hs
              simp only [Bool.and_eq_true, decide_eq_true_eq] at hs
              have := congrArg Rng.len e2.2.1
              simp only at this
              omega
            · next hnl =>
              exfalso
              cases e with
              | front =>
                obtain ⟨a, ha⟩ := (after_wf umax zst ops).live hw (b := b) (i := q.off) (by simp [World.covers, Rng.has]; omega)
                exact hnl a ha
              | back =>
                obtain ⟨a, ha⟩ := (after_wf umax zst ops).live hw (b := b) (i := q.off + q.len - 1) (by simp [World.covers, Rng.has]; omega)
                exact hnl a ha
        | _ => simp only [World.act, hw] at e2; cases e2

/-- C43: a parts iterator gives its reference up in the call that takes its last items. -/
theorem C43_released_parts {k b : Nat} {e : End} {al : Option Nat} {it : SliceItemsParts} {s' : State α} (_h : after umax zst ops = .ok s)
    (ha : answer umax zst ops (.nextPart e k) = .ok .handle)
    (h' : after umax zst (ops ++ [.nextPart e k]) = .ok s') (hk : s'.get k = some (.parts b al it)) (hr : ∀ i, ¬ s'.Sees umax k b i) : al = none := by
  have R' := Rel.of_after h'
  rw [← Option.not_isSome_iff_eq_none]
  intro hs
  rw [answer_eq] at ha
  rcases R'.at_ k with ⟨e1, _⟩ | ⟨x, y, e1, e2, hrel⟩
  · rw [hk] at e1; cases e1
  · rw [hk] at e1; cases e1
    have e3 := e2
    rw [World.after_snoc, World.call, World.settle_get] at e2
    cases hw : (World.after umax zst ops).get k with
    | none => simp only [World.act, hw] at ha; cases ha
    | some z =>
      cases z with
      | parts b' rest hh =>
        simp only [World.act, hw] at ha e2
        split at ha
        · cases ha
        · next p hp =>
          rw [hp] at e2
          simp only at e2
          rw [World.get_push_some (World.get_put_self hw _)] at e2
          cases e2
          generalize hg : (Hand.parts b' (deqStep e rest).2 (World.splitHolds hh p.len (World.total (deqStep e rest).2)).2) = g at hrel e3
          cases hrel with
          | parts _ _ m f c q q1 q2 q3 =>
            simp only [Hand.parts.injEq] at hg
            obtain ⟨rfl, g1, g2⟩ := hg
            rw [← g2] at hs
            have hpos : 0 < World.total (deqStep e rest).2 := by
              simp only [World.splitHolds] at hs
              split at hs
              · cases hs
              · omega
            rw [g1] at hpos
            obtain ⟨i, hi⟩ := World.total_pos hpos
            exact hr i ((R'.sees_of e3).2 (by simp [World.covers, hi]))
          | _ => cases hg
      | _ => simp only [World.act, hw] at ha; cases ha

/-- The iterator has the reference while it has items and gives it up with the last. -/
example : (after 100 false [.mutNew [5, 6], .intoIter 0, .next .front 0]).map (fun s => s.get 0) = .ok (some (.iter ⟨0, 1, 1, some 0⟩)) ∧
    (after 100 false [.mutNew [5, 6], .intoIter 0, .next .front 0, .next .back 0]).map (fun s => (s.get 0, s.h.sk.mem 0)) =
      .ok (some (.iter ⟨0, 1, 0, none⟩), false) := ⟨rfl, rfl⟩

/-- A parts iterator that has handed out both halves; the memory is with them. -/
example : (after 100 false [.mutNew [5, 6], .intoParts 0 2, .nextPart .front 0, .nextPart .front 0]).map
      (fun s => ((match s.get 0 with | some (.parts _ al _) => al | _ => some 9), s.h.sk.mem 0)) = .ok (none, true) := by
  with_unfolding_all rfl

end Verif
