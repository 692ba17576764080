import Verif.Rc.Proofs.Disjoint
import Verif.Rc.Program
import Verif.Spec.Histories
/-!
# Facts about reachable worlds
-/

namespace Verif.Spec
variable {α : Type}

/-- What holds in every world a history leads to. -/
structure World.Wf (w : World α) : Prop where
  disj : ∀ {k k' : Nat} {y y' : Hand} {b i : Nat}, w.get k = some y → w.get k' = some y' → k ≠ k' →
    w.covers b i y = true → w.covers b i y' = true →
    ∃ f p p', y = .shared f p ∧ y' = .shared f p' ∧ Related p p'
  fam : ∀ {k f : Nat} {p : List Side}, w.get k = some (.shared f p) ∨ w.get k = some (.weak f p) → f < w.fams.length
  live : ∀ {k : Nat} {y : Hand} {b i : Nat}, w.get k = some y → w.covers b i y = true → ∃ a, w.items b i = .live a
  keeps : ∀ {k : Nat} {y : Hand} {b i : Nat}, w.get k = some y → w.covers b i y = true → w.zst = false → w.keeps b y = true
  view : ∀ {k : Nat} {x : Hand} {b : Nat} {r : Rng}, w.get k = some x → w.view x = some (b, r) → ∀ i, w.covers b i x = r.has i
  fresh : ∀ b i, w.nbuf ≤ b → w.items b i = .absent
  freshMem : ∀ b, w.nbuf ≤ b → w.mem b = false

namespace World

theorem anyHand_iff {w : World α} {t : Hand → Bool} : w.anyHand t = true ↔ ∃ k x, w.get k = some x ∧ t x = true := by
  simp only [anyHand, List.any_eq_true, get]
  constructor
  · rintro ⟨o, ho, h⟩
    obtain ⟨k, hk⟩ := List.mem_iff_getElem?.1 ho
    cases o with
    | none => cases h
    | some x => exact ⟨k, x, by rw [hk]; rfl, h⟩
  · rintro ⟨k, x, hk, h⟩
    cases h1 : w.hs[k]? with
    | none => rw [h1] at hk; cases hk
    | some o =>
      rw [h1] at hk; simp only [Option.join_some] at hk; subst hk
      exact ⟨_, List.mem_iff_getElem?.2 ⟨k, h1⟩, h⟩

theorem get_put_ne {w : World α} {k k' : Nat} (x : Hand) (h : k' ≠ k) : (w.put k x).get k' = w.get k' := by
  simp only [get, put]; rw [List.getElem?_set_ne (Ne.symm h)]

theorem get_lt {w : World α} {k : Nat} {x : Hand} (h : w.get k = some x) : k < w.hs.length := by
  apply Nat.lt_of_not_le; intro hle
  simp only [get] at h
  rw [List.getElem?_eq_none hle] at h; cases h

theorem get_put_self {w : World α} {k : Nat} {x : Hand} (h : w.get k = some x) (y : Hand) : (w.put k y).get k = some y := by
  have := get_lt h
  simp only [get, put]; simp [this]

theorem get_del_ne {w : World α} {k k' : Nat} (h : k' ≠ k) : (w.del k).get k' = w.get k' := by
  simp only [get, del]; rw [List.getElem?_set_ne (Ne.symm h)]

theorem get_del_self {w : World α} {k : Nat} : (w.del k).get k = none := by
  simp only [get, del, List.getElem?_set_self']
  cases w.hs[k]? <;> rfl

theorem get_push_lt {w : World α} {k : Nat} {x : Hand} (h : k < w.hs.length) : (w.push x).get k = w.get k := by
  simp only [get, push]; rw [List.getElem?_append_left h]

theorem get_push_self {w : World α} {x : Hand} : (w.push x).get w.hs.length = some x := by
  simp only [get, push]; simp

theorem get_push_some {w : World α} {k : Nat} {x y : Hand} (h : w.get k = some y) : (w.push x).get k = some y := by
  rw [get_push_lt (get_lt h)]; exact h

/-- The handles after appending one. -/
theorem get_push_iff {w : World α} {k : Nat} {x y : Hand} :
    (w.push x).get k = some y ↔ w.get k = some y ∨ (k = w.hs.length ∧ y = x) := by
  rcases Nat.lt_trichotomy k w.hs.length with h | h | h
  · rw [get_push_lt h]
    constructor
    · exact .inl
    · rintro (h' | ⟨rfl, _⟩)
      · exact h'
      · omega
  · subst h
    rw [get_push_self]
    constructor
    · intro e; cases e; exact .inr ⟨rfl, rfl⟩
    · rintro (h' | ⟨_, rfl⟩)
      · have := get_lt h'; omega
      · rfl
  · constructor
    · intro h'
      have := get_lt h'
      simp [push] at this; omega
    · rintro (h' | ⟨rfl, _⟩)
      · have := get_lt h'; omega
      · omega

theorem get_put_iff {w : World α} {k k' : Nat} {x0 x y : Hand} (h0 : w.get k = some x0) :
    (w.put k x).get k' = some y ↔ (k' ≠ k ∧ w.get k' = some y) ∨ (k' = k ∧ y = x) := by
  by_cases h : k' = k
  · subst h; rw [get_put_self h0]
    constructor
    · intro e; cases e; exact .inr ⟨rfl, rfl⟩
    · rintro (⟨h, _⟩ | ⟨_, rfl⟩)
      · exact absurd rfl h
      · rfl
  · rw [get_put_ne _ h]; simp [h]

theorem get_del_iff {w : World α} {k k' : Nat} {y : Hand} : (w.del k).get k' = some y ↔ k' ≠ k ∧ w.get k' = some y := by
  by_cases h : k' = k
  · subst h; rw [get_del_self]; simp
  · rw [get_del_ne h]; simp [h]

theorem otherHand_iff {w : World α} {k : Nat} {t : Hand → Bool} :
    w.otherHand k t = true ↔ ∃ k' x, k' ≠ k ∧ w.get k' = some x ∧ t x = true := by
  rw [otherHand, anyHand_iff]
  constructor
  · rintro ⟨k', x, h1, h2⟩
    obtain ⟨h3, h4⟩ := get_del_iff.1 h1
    exact ⟨k', x, h3, h4, h2⟩
  · rintro ⟨k', x, h1, h2, h3⟩; exact ⟨k', x, get_del_iff.2 ⟨h1, h2⟩, h3⟩

theorem above_iff {p q : List Side} : above p q = true ↔ p <:+ q := List.isSuffixOf_iff_suffix

theorem otherStrong_iff {w : World α} {k f : Nat} {p : List Side} :
    w.otherHand k (sharedConflict f p) = true ↔ w.OtherStrong k f p := by
  rw [otherHand_iff]
  constructor
  · rintro ⟨k', x, h1, h2, h3⟩
    cases x with
    | shared f' q =>
      simp only [sharedConflict, Bool.and_eq_true, beq_iff_eq, Bool.or_eq_true, above_iff] at h3
      obtain ⟨rfl, h3⟩ := h3
      exact ⟨k', q, h1, h2, h3⟩
    | _ => simp [sharedConflict] at h3
  · rintro ⟨k', q, h1, h2, h3⟩
    refine ⟨k', _, h1, h2, ?_⟩
    simp only [sharedConflict, Bool.and_eq_true, beq_iff_eq, Bool.or_eq_true, above_iff]
    exact ⟨trivial, h3⟩

theorem otherWeak_iff {w : World α} {k f : Nat} {p : List Side} {x : Hand} (hk : w.get k = some x)
    (hx : ∀ f q, x ≠ .weak f q) : w.otherHand k (weakConflict f p) = true ↔ w.WeakBelow f p := by
  rw [otherHand_iff]
  constructor
  · rintro ⟨k', x, h1, h2, h3⟩
    cases x with
    | weak f' q =>
      simp only [weakConflict, Bool.and_eq_true, beq_iff_eq, above_iff] at h3
      obtain ⟨rfl, h3⟩ := h3
      exact ⟨k', q, h2, h3⟩
    | _ => simp [weakConflict] at h3
  · rintro ⟨k', q, h2, h3⟩
    refine ⟨k', _, ?_, h2, ?_⟩
    · rintro rfl; rw [hk] at h2; cases h2; exact hx _ _ rfl
    · simp only [weakConflict, Bool.and_eq_true, beq_iff_eq, above_iff]
      exact ⟨trivial, h3⟩

theorem strongAbove_iff {w : World α} {f : Nat} {p : List Side} :
    w.anyHand (sharedAbove f p) = true ↔ w.StrongAbove f p := by
  rw [anyHand_iff]
  constructor
  · rintro ⟨k', x, h2, h3⟩
    cases x with
    | shared f' q =>
      simp only [sharedAbove, Bool.and_eq_true, beq_iff_eq, above_iff] at h3
      obtain ⟨rfl, h3⟩ := h3
      exact ⟨k', q, h2, h3⟩
    | _ => simp [sharedAbove] at h3
  · rintro ⟨k', q, h2, h3⟩
    refine ⟨k', _, h2, ?_⟩
    simp only [sharedAbove, Bool.and_eq_true, beq_iff_eq, above_iff]
    exact ⟨trivial, h3⟩

theorem run_append (umax : Nat) (w : World α) (a b : List (Op α)) :
    w.run umax (a ++ b) = (((w.run umax a).1.run umax b).1, (w.run umax a).2 ++ ((w.run umax a).1.run umax b).2) := by
  induction a generalizing w with
  | nil => rfl
  | cons op a ih => simp only [List.cons_append, run, ih]

theorem after_append (umax : Nat) (zst : Bool) (a b : List (Op α)) :
    after umax zst (a ++ b) = ((after umax zst a).run umax b).1 := by
  simp only [after, run_append]

theorem after_snoc (umax : Nat) (zst : Bool) (a : List (Op α)) (op : Op α) :
    after umax zst (a ++ [op]) = ((after umax zst a).call umax op).1 := by
  rw [after_append]; rfl

end World
end Verif.Spec

namespace Verif.Rc
open Verif.Spec (Side Slot Family Rng Hand World Op Obs End)
variable {α : Type} {umax : Nat} {zst : Bool}

theorem Rel.view {s : State α} {w : World α} {T : List Tok} (R : Rel umax s w T) {k : Nat} {x : Hand} {b : Nat} {r : Rng}
    (hk : w.get k = some x) (hv : w.view x = some (b, r)) (i : Nat) : w.covers b i x = r.has i := by
  rcases R.at_ k with ⟨_, e⟩ | ⟨_, y, _, e2, hr⟩
  · rw [hk] at e; cases e
  · rw [hk] at e2; cases e2
    cases hr with
    | parts b' a m f c r' q1 q2 q3 =>
      simp only [World.view, win_view q1, Option.some.injEq, Prod.mk.injEq] at hv
      obtain ⟨rfl, rfl⟩ := hv
      simp only [World.covers, win_has q1, beq_self_eq_true, Bool.true_and]
    | weak d g f p hl => cases hv
    | weakNone g => cases hv
    | _ =>
      simp only [World.view, Option.some.injEq, Prod.mk.injEq] at hv
      obtain ⟨rfl, rfl⟩ := hv
      simp [World.covers]

theorem Rel.wf {s : State α} {w : World α} {T : List Tok} (R : Rel umax s w T) : w.Wf where
  disj h1 h2 h3 h4 h5 := R.overlap h1 h2 h3 h4 h5
  fam h := R.fam_lt h
  live h1 h2 := R.live h1 h2
  keeps h1 h2 h3 := R.keeps h1 h2 h3
  view h1 h2 i := R.view h1 h2 i
  fresh b i h := by rw [R.core.items]; exact R.inv.bufs b i (by rw [← R.core.nbuf]; exact h)
  freshMem b h := by
    rw [R.core.mem, ← Bool.not_eq_true]; intro hm
    have := R.inv.good.shape.memLt b hm
    rw [R.core.nbuf] at h; omega

/-- The code after a history. -/
theorem after_rel (umax : Nat) (zst : Bool) (ops : List (Op α)) :
    ∃ s, after umax zst ops = .ok s ∧ Rel umax s (World.after umax zst ops) [] := by
  obtain ⟨s, e, R⟩ := run_sim ops (Rel.init (α := α) umax zst)
  exact ⟨s, by simp only [after, e]; rfl, R⟩

theorem after_wf (umax : Nat) (zst : Bool) (ops : List (Op α)) : (World.after umax zst ops).Wf := by
  obtain ⟨_, _, R⟩ := after_rel umax zst ops; exact R.wf

theorem Rel.of_after {ops : List (Op α)} {s : State α} (h : after umax zst ops = .ok s) : Rel umax s (World.after umax zst ops) [] := by
  obtain ⟨s', e, R⟩ := after_rel umax zst ops
  rw [h] at e; cases e; exact R

theorem answer_eq (umax : Nat) (zst : Bool) (ops : List (Op α)) (op : Op α) :
    answer umax zst ops op = .ok ((World.after umax zst ops).act umax op).2 := by
  obtain ⟨s, e, R⟩ := after_rel umax zst ops
  obtain ⟨s', o, e2, _, rfl⟩ := call_sim R op
  simp only [answer, e, Except.bind, e2]; rfl

end Verif.Rc

namespace Verif.Rc
open Verif.Spec (Side Slot Family Rng Hand World Op Obs End)
variable {α : Type} {umax : Nat} {zst : Bool} {s : State α} {w : World α} {T : List Tok}

theorem Rel.sees_iff (R : Rel umax s w T) {k b i : Nat} : s.Sees umax k b i ↔ ∃ y, w.get k = some y ∧ w.covers b i y = true := by
  constructor
  · rintro ⟨x, off, len, h1, h2, h3, h4⟩
    rcases R.at_ k with ⟨e, _⟩ | ⟨x', y, e1, e2, hr⟩
    · rw [h1] at e; cases e
    · rw [h1] at e1; cases e1
      refine ⟨y, e2, ?_⟩
      rcases handleRange_ok R h1 hr with ⟨e, _⟩ | ⟨b', r, e, e3, _⟩
      · rw [h2] at e; cases e
      · rw [h2] at e; cases e
        rw [R.view e2 e3]; simp [Rng.has, h3, h4]
  · rintro ⟨y, h1, h2⟩
    rcases R.at_ k with ⟨_, e⟩ | ⟨x, y', e1, e2, hr⟩
    · rw [h1] at e; cases e
    · rw [h1] at e2; cases e2
      rcases handleRange_ok R e1 hr with ⟨_, e⟩ | ⟨b', r, e, e3, _⟩
      · cases y <;> simp [World.view, World.covers] at e h2
      · have hb : b' = b := by
          cases y <;> simp only [World.view, reduceCtorEq, Option.some.injEq, Prod.mk.injEq] at e3 <;>
            simp only [World.covers, Bool.and_eq_true, beq_iff_eq] at h2
          all_goals (rw [← e3.1]; exact h2.1)
        subst hb
        rw [R.view h1 e3] at h2
        simp [Rng.has] at h2
        exact ⟨x, r.off, r.len, e1, e, h2⟩

theorem Rel.sees_of (R : Rel umax s w T) {k b i : Nat} {y : Hand} (hk : w.get k = some y) : s.Sees umax k b i ↔ w.covers b i y = true := by
  rw [R.sees_iff]
  constructor
  · rintro ⟨y', h1, h2⟩; rw [hk] at h1; cases h1; exact h2
  · exact fun h => ⟨y, hk, h⟩

theorem Rel.hs_len (R : Rel umax s w T) : s.hs.length = w.hs.length := R.tab.len

end Verif.Rc
