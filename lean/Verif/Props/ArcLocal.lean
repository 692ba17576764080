import Verif.Arc.Proofs.Local
import Verif.Rc.Proofs.SimParts
/-!
# C62: a thread that keeps to its own handles need not know of the others
-/

namespace Verif
open Arc
open Verif.Rc (enc_pos)
open Verif.Spec (Side Slot Rng End deqStep deqRun parts)
variable {α β γ : Type} {P : Rules α} {zst : Bool} {c c' : Conf α} {mine mine' : List Nat} {σ σ' σ1 : Store α}

/-- C62: what a thread does with its own handles, among other threads, it could have done alone: with the same results, and afterwards it has what it
would have then. `Sole` knows neither of the other threads nor of memory. The others may do anything that `P` permits except take the thread's
handles or write through them; in particular they may use all other slices of the same items. Destructors may panic. -/
theorem C62_local (hP : PStrict P) (h : Conf.PReach P zst c) (b : Believes c mine σ) {p : Body α β} {r : Except Fault β}
    (run : Acts P c mine p c' mine' r) : ∃ σ', Sole σ p σ' r ∧ Believes c' mine' σ' :=
  run.sole hP h b

/-- C62: whatever handles the thread has, there is a store to start with; it says what the handles read. -/
theorem C62_start (hP : PTame P) (h : Conf.PReach P zst c) (hm : ∀ k, k ∈ mine → ∃ v, c.Sees k v) :
    ∃ σ, Believes c mine σ ∧ ∀ k xs, k ∈ mine → c.Reads k xs → σ k = some (.items xs) := by
  obtain ⟨σ, b⟩ := believes_of hP h hm
  exact ⟨σ, b, fun k xs => b.reads⟩

/-! ## Programs, alone -/

theorem sole_bind {p : Body α β} {q : β → Body α γ} {r : Except Fault γ} (h : Sole σ (p >>= q) σ' r) :
    (∃ σ1 b, Sole σ p σ1 (.ok b) ∧ Sole σ1 (q b) σ' r) ∨ ∃ f, Sole σ p σ' (.error f) ∧ r = .error f := by
  induction p generalizing σ with
  | ret b => exact .inl ⟨σ, b, .ret, h⟩
  | fault f => cases h; exact .inr ⟨f, .fault, rfl⟩
  | call op next ih =>
    cases h with
    | call h1 h2 => rcases ih _ _ h2 with ⟨σ1, b, h3, h4⟩ | ⟨f, h3, h4⟩
                    · exact .inl ⟨σ1, b, .call h1 h3, h4⟩
                    · exact .inr ⟨f, .call h1 h3, h4⟩
  | weakNew next ih =>
    cases h with
    | weakNew h1 h2 => rcases ih _ h2 with ⟨σ1, b, h3, h4⟩ | ⟨f, h3, h4⟩
                       · exact .inl ⟨σ1, b, .weakNew h1 h3, h4⟩
                       · exact .inr ⟨f, .weakNew h1 h3, h4⟩
  | endMut k next ih =>
    cases h with
    | endMut h2 => rcases ih h2 with ⟨σ1, b, h3, h4⟩ | ⟨f, h3, h4⟩
                   · exact .inl ⟨σ1, b, .endMut h3, h4⟩
                   · exact .inr ⟨f, .endMut h3, h4⟩
  | len k next ih =>
    cases h with
    | len h1 h2 => rcases ih _ h2 with ⟨σ1, b, h3, h4⟩ | ⟨f, h3, h4⟩
                   · exact .inl ⟨σ1, b, .len h1 h3, h4⟩
                   · exact .inr ⟨f, .len h1 h3, h4⟩
  | get k i next ih =>
    cases h with
    | get h1 h2 => rcases ih _ h2 with ⟨σ1, b, h3, h4⟩ | ⟨f, h3, h4⟩
                   · exact .inl ⟨σ1, b, .get h1 h3, h4⟩
                   · exact .inr ⟨f, .get h1 h3, h4⟩
  | set k i x next ih =>
    cases h with
    | set h1 h2 => rcases ih h2 with ⟨σ1, b, h3, h4⟩ | ⟨f, h3, h4⟩
                   · exact .inl ⟨σ1, b, .set h1 h3, h4⟩
                   · exact .inr ⟨f, .set h1 h3, h4⟩

/-- Handles that are not the one given. -/
def Spares (k : Nat) (σ σ' : Store α) : Prop := ∀ j v, j ≠ k → σ j = some v → σ' j = some v

theorem gives_keeps {op : Op α} {k m : Nat} {ys : List (List α)} (hm : ∀ i, i < ys.length → σ (m + i) = none) (ht : ∀ j, op.takes = some j → j = k) :
    Spares k σ ((σ.minus op).plus m ys) := by
  intro j v hj hv
  simp only [Store.plus, Store.minus]
  have h1 : ¬ op.takes = some j := fun h => hj (ht j h)
  rw [if_neg h1]
  split
  · next hmj =>
    split
    · next y hy =>
      have := hm (j - m) (List.getElem?_eq_some_iff.1 hy).1
      rw [show m + (j - m) = j by omega, hv] at this; cases this
    · exact hv
  · exact hv

theorem plus_at {m i : Nat} {ys : List (List α)} {y : List α} (hy : ys[i]? = some y) : (σ.plus m ys) (m + i) = some (.items y) := by
  simp only [Store.plus]
  rw [if_pos (by omega), show m + i - m = i by omega, hy]

theorem nextItem_sole {e : End} {k : Nat} {xs : List α} (hk : σ k = some (.items xs)) {r : Except Fault (Option α × Nat)}
    (h : Sole σ (nextItem e k) σ' r) : ∃ k', r = .ok ((deqStep e xs).1, k') ∧ σ' k' = some (.items (deqStep e xs).2) ∧ Spares k σ σ' ∧ σ k' = none := by
  cases h with
  | call h1 h2 =>
    cases h1 with
    | @gives _ k' xs' res ys m hon hk' hg hm =>
      cases hon
      rw [hk] at hk'; cases hk'
      have ks := gives_keeps (op := .next e k) hm (k := k) (fun j hj => by cases hj; rfl)
      cases hg with
      | nextNone => cases h2; refine ⟨m, ?_, plus_at (i := 0) ?_, ks, hm 0 (by simp)⟩ <;> cases e <;> rfl
      | nextFront => cases h2; exact ⟨m, rfl, plus_at (i := 0) rfl, ks, hm 0 (by simp)⟩
      | nextBack => cases h2; exact ⟨m, by simp [deqStep], plus_at (i := 0) (by simp [deqStep]), ks, hm 0 (by simp)⟩

theorem walk_sole {w : List End} : ∀ {σ σ' : Store α} {k : Nat} {xs : List α}, σ k = some (.items xs) → ∀ {r}, Sole σ (walk w k) σ' r →
    ∃ k', r = .ok ((deqRun w xs).1, k') ∧ σ' k' = some (.items (deqRun w xs).2) ∧ Spares k σ σ' := by
  induction w with
  | nil => intro σ σ' k xs hk r h; cases h; exact ⟨k, rfl, hk, fun _ _ _ h => h⟩
  | cons e w ih =>
    intro σ σ' k xs hk r h
    rcases sole_bind h with ⟨σ1, b, h1, h2⟩ | ⟨f, h1, _⟩
    · obtain ⟨k1, e1, h3, ks, hfr⟩ := nextItem_sole hk h1
      cases e1
      rcases sole_bind h2 with ⟨σ2, b, h4, h5⟩ | ⟨f, h4, _⟩
      · obtain ⟨k2, e2, h6, h7⟩ := ih h3 h4
        cases e2
        cases h5
        exact ⟨k2, rfl, h6, fun j v hj hv => h7 j v (fun h => by rw [h, hfr] at hv; cases hv) (ks j v hj hv)⟩
      · obtain ⟨k2, e2, h6⟩ := ih h3 h4; cases e2
    · obtain ⟨k1, e1, h3⟩ := nextItem_sole hk h1; cases e1

theorem itemsFrom_sole {k : Nat} {xs : List α} (hk : σ k = some (.items xs)) : ∀ {n i : Nat} {σ' : Store α}, i + n = xs.length → ∀ {r}, Sole σ (itemsFrom k n i) σ' r →
    r = .ok (xs.drop i) ∧ σ' = σ := by
  intro n
  induction n with
  | zero => intro i σ' hi r h; cases h; exact ⟨by rw [List.drop_of_length_le (by omega)], rfl⟩
  | succ n ih =>
    intro i σ' hi r h
    cases h with
    | get hk' h2 =>
      rw [hk] at hk'; cases hk'
      have hlt : i < xs.length := by omega
      rw [List.getElem?_eq_getElem hlt] at h2
      rcases sole_bind h2 with ⟨σ1, b, h3, h4⟩ | ⟨f, h3, _⟩
      · obtain ⟨e, rfl⟩ := ih (by omega) h3
        cases e
        cases h4
        exact ⟨by rw [List.drop_eq_getElem_cons hlt], rfl⟩
      · cases (ih (by omega) h3).1

theorem cloneMut_sole {k : Nat} {xs : List α} (hk : σ k = some (.items xs)) {r : Except Fault Nat} (h : Sole σ (cloneMut k) σ' r) :
    ∃ m, r = .ok m ∧ m ≠ k ∧ σ' m = some (.items xs) ∧ ∀ j v, σ j = some v → σ' j = some v := by
  cases h with
  | len hk' h2 =>
    rw [hk] at hk'; cases hk'
    rcases sole_bind h2 with ⟨σ1, b, h3, h4⟩ | ⟨f, h3, _⟩
    · obtain ⟨e, rfl⟩ := itemsFrom_sole hk (by omega) h3
      cases e
      cases h4 with
      | call h5 h6 =>
        cases h5 with
        | gives hon => cases hon
        | @mutNew _ m hm =>
          cases h6
          refine ⟨m, rfl, fun h => ?_, by simp [Store.put], fun j v hj => ?_⟩
          · subst h; rw [hk] at hm; cases hm
          · simp only [Store.put]
            rw [if_neg (fun h => by subst h; rw [hj] at hm; cases hm)]
            exact hj
    · cases (itemsFrom_sole hk (by omega) h3).1

theorem mapFrom_sole {f : α → α} {k : Nat} : ∀ {n i : Nat} {σ : Store α} {xs : List α}, σ k = some (.items xs) → i + n = xs.length →
    ∀ {r}, Sole σ (mapFrom f k n i) σ' r → r = .ok () ∧ σ' k = some (.items (xs.take i ++ (xs.drop i).map f)) ∧ Spares k σ σ' := by
  intro n
  induction n with
  | zero =>
    intro i σ xs hk hi r h
    cases h
    refine ⟨rfl, ?_, fun _ _ _ h => h⟩
    rw [hk, List.take_of_length_le (by omega), List.drop_of_length_le (by omega)]; simp
  | succ n ih =>
    intro i σ xs hk hi r h
    cases h with
    | get hk' h2 =>
      rw [hk] at hk'; cases hk'
      have hlt : i < xs.length := by omega
      rw [List.getElem?_eq_getElem hlt] at h2
      cases h2 with
      | set hk' h3 =>
        rw [hk] at hk'; cases hk'
        obtain ⟨e, h4, h5⟩ := ih (xs := xs.set i (f xs[i])) (by simp [Store.put]) (by simp; omega) h3
        refine ⟨e, ?_, fun j v hj hv => h5 j v hj (by simp [Store.put, hj, hv])⟩
        rw [h4]
        congr 2
        have hl : (xs.take i).length = i := by simp; omega
        have h1 : (xs.set i (f xs[i])).take (i + 1) = xs.take i ++ [f xs[i]] := by
          rw [List.set_eq_take_append_cons_drop, if_pos hlt, List.take_append, hl, List.take_of_length_le (by omega)]; simp
        have h2 : (xs.set i (f xs[i])).drop (i + 1) = xs.drop (i + 1) := by
          rw [List.set_eq_take_append_cons_drop, if_pos hlt, List.drop_append, hl, List.drop_of_length_le (by omega)]; simp
        rw [h1, h2, List.drop_eq_getElem_cons (i := i) hlt]
        rw [List.map_cons, List.append_assoc]; rfl

theorem lparts_flatten {i : Nat} {xs : List α} : (lparts i xs).flatten = xs := by
  induction i generalizing xs with
  | zero => simp [parts]
  | succ i ih => simp only [parts, List.flatten_append]; rw [ih, ih, List.take_append_drop]

theorem lparts_len {i : Nat} {xs : List α} {r : Rng} (h : r.len = xs.length) : (rparts i r).map Rng.len = (lparts i xs).map List.length := by
  induction i generalizing xs r with
  | zero => simp [parts, h]
  | succ i ih =>
    simp only [parts, List.map_append]
    rw [ih (xs := xs.take (xs.length / 2)) (by simp [Rng.left, h]; omega), ih (xs := xs.drop (xs.length / 2)) (by simp [Rng.right, h])]

/-- An iterator over the parts of `xs`, after `f` and `b` calls. -/
def psAt (umax i f b : Nat) (xs : List α) : SliceItemsParts := .pstate (Rc.posCtx umax xs.length) i f b ⟨0, xs.length⟩

theorem nextPartMut_sole {umax : Nat} {e : End} {i f b : Nat} {xs : List α} (hu : 2 ^ i ≤ umax) (hfb : f + b ≤ 2 ^ i) {k : Nat}
    (hk : σ k = some (.items (win (lparts i xs) f b).flatten)) {r : Except Fault (Option Nat × Nat × SliceItemsParts)}
    (h : Sole σ (nextPartMut umax e (k, psAt umax i f b xs)) σ' r) :
    ∃ o k' f' b', r = .ok (o, k', psAt umax i f' b' xs) ∧ f' + b' ≤ 2 ^ i ∧ (deqStep e (win (lparts i xs) f b)).2 = win (lparts i xs) f' b' ∧
      σ' k' = some (.items (win (lparts i xs) f' b').flatten) ∧ Spares k σ σ' ∧ (k' = k ∨ σ k' = none) ∧
      (match o, (deqStep e (win (lparts i xs) f b)).1 with
        | some m, some ys => m ≠ k' ∧ σ' m = some (.items ys)
        | none, none => True
        | _, _ => False) := by
  have hin : InBuf (Rc.posCtx umax xs.length) ⟨0, xs.length⟩ := by simp [InBuf, Rc.posCtx]
  have hlen := @lparts_len α i xs ⟨0, xs.length⟩ rfl
  have hpl : (lparts i xs).length = 2 ^ i := parts_length ..
  have hget : ∀ (n : Nat) p, (rparts i ⟨0, xs.length⟩)[n]? = some p → ∃ y, (lparts i xs)[n]? = some y ∧ p.len = y.length := by
    intro n p hp
    have := congrArg (·[n]?) hlen
    simp only [List.getElem?_map, hp, Option.map_some] at this
    cases hy : (lparts i xs)[n]? with
    | none => rw [hy] at this; cases this
    | some y => rw [hy] at this; exact ⟨y, rfl, by simpa using this⟩
  by_cases hlt : f + b < 2 ^ i
  · have hwl : f + b < (lparts i xs).length := by rw [hpl]; exact hlt
    cases e with
    | front =>
      have hn := SliceItemsParts.next_pstate (Rc.posCtx umax xs.length) i f b ⟨0, xs.length⟩ hin hu hlt
      have hr := rparts_get i f ⟨0, xs.length⟩ (by omega)
      obtain ⟨y, hy, hyl⟩ := hget f _ hr
      rw [hr] at hn
      simp only [Option.map_some, enc_pos] at hn
      simp only at hyl
      rw [hyl] at hn
      have hps : Seq.partsStep umax (psAt umax i f b xs).origLen (psAt umax i f b xs) .front = .ok _ := hn
      have hw : win (lparts i xs) f b = y :: win (lparts i xs) (f + 1) b := by
        have h1 := win_head (lparts i xs) hwl
        rw [hy] at h1
        rw [← win_tail]
        cases hh : win (lparts i xs) f b with
        | nil => rw [hh] at h1; cases h1
        | cons a l => rw [hh] at h1; cases h1; rfl
      rw [hw] at hk ⊢
      simp only [nextPartMut, hps] at h
      cases h with
      | len hk' h =>
        rw [hk] at hk'; cases hk'
        cases h with
        | call h1 h2 =>
          cases h1 with
          | @gives _ k' xs' res ys m hon hk' hg hm =>
            cases hon
            rw [hk] at hk'; cases hk'
            have ks := gives_keeps (op := .cut .front (Seq.cutAt (List.flatten (y :: win (lparts i xs) (f + 1) b)).length
              y.length .front) k) hm (k := k) (fun j hj => by cases hj; rfl)
            cases hg with
            | cutFront hle =>
              cases h2
              refine ⟨some m, m + 1, f + 1, b, rfl, by omega, rfl, ?_, ks, .inr (hm 1 (by simp)), ?_⟩
              · refine plus_at (i := 1) ?_
                simp [Seq.cutAt]
              · refine ⟨by omega, plus_at (i := 0) ?_⟩
                simp [Seq.cutAt]
            | cutPanic hlt => exfalso; simp only [Seq.cutAt, List.flatten_cons, List.length_append] at hlt; omega
    | back =>
      have hn := SliceItemsParts.nextBack_pstate (Rc.posCtx umax xs.length) i f b ⟨0, xs.length⟩ hin hu hlt
      have hr := rparts_get i (2 ^ i - 1 - b) ⟨0, xs.length⟩ (by omega)
      obtain ⟨y, hy, hyl⟩ := hget _ _ hr
      rw [hr] at hn
      simp only [Option.map_some, enc_pos] at hn
      simp only at hyl
      rw [hyl] at hn
      have hps : Seq.partsStep umax (psAt umax i f b xs).origLen (psAt umax i f b xs) .back = .ok _ := hn
      have hw : win (lparts i xs) f b = win (lparts i xs) f (b + 1) ++ [y] := by
        have h1 := win_last (lparts i xs) hwl
        rw [hpl, hy] at h1
        rw [← win_dropLast]
        obtain ⟨l, hl⟩ := List.getLast?_eq_some_iff.1 h1
        rw [hl, List.dropLast_concat]
      rw [hw] at hk ⊢
      simp only [nextPartMut, hps] at h
      cases h with
      | len hk' h =>
        rw [hk] at hk'; cases hk'
        cases h with
        | call h1 h2 =>
          cases h1 with
          | @gives _ k' xs' res ys m hon hk' hg hm =>
            cases hon
            rw [hk] at hk'; cases hk'
            have ks := gives_keeps (op := .cut .back (Seq.cutAt (List.flatten (win (lparts i xs) f (b + 1) ++ [y])).length
              y.length .back) k) hm (k := k) (fun j hj => by cases hj; rfl)
            cases hg with
            | cutBack hle =>
              cases h2
              refine ⟨some m, m + 1, f, b + 1, rfl, by omega, by simp [deqStep], ?_, ks, .inr (hm 1 (by simp)), ?_⟩
              · refine plus_at (i := 1) ?_
                simp [Seq.cutAt]
              · simp only [deqStep, List.getLast?_append, List.getLast?_singleton, Option.some_or]
                refine ⟨by omega, plus_at (i := 0) ?_⟩
                simp [Seq.cutAt]
            | cutPanic hlt => exfalso; simp only [Seq.cutAt] at hlt; omega
  · have hd := SliceItemsParts.next_pstate_done (Rc.posCtx umax xs.length) i f b ⟨0, xs.length⟩ (by omega)
    have hw : win (lparts i xs) f b = [] := win_done _ (by rw [hpl]; omega)
    have hps : Seq.partsStep umax (psAt umax i f b xs).origLen (psAt umax i f b xs) e = .ok (none, psAt umax i f b xs) := by
      cases e
      · exact hd.1
      · exact hd.2
    simp only [nextPartMut, hps] at h
    cases h
    refine ⟨none, k, f, b, rfl, hfb, ?_, hk, fun _ _ _ h => h, .inl rfl, ?_⟩
    · rw [hw]; cases e <;> rfl
    · rw [hw]; cases e <;> trivial

theorem walkPartsMut_sole {umax i : Nat} {xs : List α} (hu : 2 ^ i ≤ umax) {w : List End} : ∀ {σ σ' : Store α} {f b k : Nat}, f + b ≤ 2 ^ i →
    σ k = some (.items (win (lparts i xs) f b).flatten) → ∀ {r}, Sole σ (walkPartsMut umax w (k, psAt umax i f b xs)) σ' r →
    ∃ ms k' it, r = .ok (ms, k', it) ∧ AreParts (fun m ys => σ' m = some (.items ys)) ms (deqRun w (win (lparts i xs) f b)).1 ∧
      σ' k' = some (.items (deqRun w (win (lparts i xs) f b)).2.flatten) ∧ Spares k σ σ' := by
  induction w with
  | nil => intro σ σ' f b k hfb hk r h; cases h; exact ⟨[], k, _, rfl, trivial, hk, fun _ _ _ h => h⟩
  | cons e w ih =>
    intro σ σ' f b k hfb hk r h
    rcases sole_bind h with ⟨σ1, p, h1, h2⟩ | ⟨g, h1, _⟩
    · obtain ⟨o, k1, f', b', e1, hfb', hst, hk1, ks, hfr, hm⟩ := nextPartMut_sole hu hfb hk h1
      cases e1
      have done : ∀ {r σ2}, Sole σ1 (walkPartsMut umax w (k1, psAt umax i f' b' xs)) σ2 r → ∃ ms k' it, r = .ok (ms, k', it) ∧
          AreParts (fun m ys => σ2 m = some (.items ys)) (o :: ms) (deqRun (e :: w) (win (lparts i xs) f b)).1 ∧
          σ2 k' = some (.items (deqRun (e :: w) (win (lparts i xs) f b)).2.flatten) ∧ Spares k1 σ1 σ2 := by
        intro r σ2 h
        obtain ⟨ms, k2, it, e2, h3, h4, h5⟩ := ih hfb' hk1 h
        refine ⟨ms, k2, it, e2, ?_, ?_, h5⟩
        · simp only [deqRun, hst]
          revert hm
          cases o with
          | none =>
            cases (deqStep e (win (lparts i xs) f b)).1 with
            | none => exact fun _ => h3
            | some ys => exact fun h => h.elim
          | some m =>
            cases (deqStep e (win (lparts i xs) f b)).1 with
            | none => exact fun h => h.elim
            | some ys => exact fun h => ⟨h5 m _ h.1 h.2, h3⟩
        · simp only [deqRun, hst]; exact h4
      rcases sole_bind h2 with ⟨σ2, p, h4, h5⟩ | ⟨g, h4, _⟩
      · obtain ⟨ms, k2, it, e2, h6, h7, h8⟩ := done h4
        cases e2
        cases h5
        refine ⟨_, k2, it, rfl, h6, h7, fun j v hj hv => h8 j v ?_ (ks j v hj hv)⟩
        rintro rfl
        rcases hfr with h9 | h9
        · exact hj h9
        · rw [hv] at h9; cases h9
      · obtain ⟨ms, k2, it, e2, _⟩ := done h4; cases e2
    · obtain ⟨o, k1, f', b', e1, _⟩ := nextPartMut_sole hu hfb hk h1; cases e1

/-! ## Programs, among other threads -/

/-- C62: an iterator over an `ArcSliceMut` that is called from both ends yields the items of the slice, from both ends: each of the calls of `w` what a list
would give that is consumed from both ends. -/
theorem C62_iterate (hP : PStrict P) (h : Conf.PReach P zst c) (hm : ∀ k, k ∈ mine → ∃ v, c.Sees k v) {k : Nat} {xs : List α} (hk : k ∈ mine)
    (hr : c.Reads k xs) {w : List End} {r : Except Fault (List (Option α) × Nat)} (run : Acts P c mine (walk w k) c' mine' r) :
    ∃ k', r = .ok ((deqRun w xs).1, k') ∧ c'.Reads k' (deqRun w xs).2 ∧ ∀ j ys, j ≠ k → j ∈ mine → c.Reads j ys → j ∈ mine' ∧ c'.Reads j ys := by
  obtain ⟨σ, b, hb⟩ := C62_start hP.tame h hm
  obtain ⟨σ', s, b'⟩ := C62_local hP h b run
  obtain ⟨k', e, h1, h2⟩ := walk_sole (hb k xs hk hr) s
  refine ⟨k', e, b'.is k' _ h1, fun j ys hne hj hy => ?_⟩
  have := h2 j _ hne (hb j ys hj hy)
  exact ⟨(b'.mem j).2 (by rw [this]; exact Option.some_ne_none _), b'.is j _ this⟩

/-- C62: `clone` of an `ArcSliceMut` gives another one, with the same items; all other handles of the thread read what they did. -/
theorem C62_clone (hP : PStrict P) (h : Conf.PReach P zst c) (hm : ∀ k, k ∈ mine → ∃ v, c.Sees k v) {k : Nat} {xs : List α} (hk : k ∈ mine)
    (hr : c.Reads k xs) {r : Except Fault Nat} (run : Acts P c mine (cloneMut k) c' mine' r) :
    ∃ m, r = .ok m ∧ m ≠ k ∧ c'.Reads m xs ∧ ∀ j ys, j ∈ mine → c.Reads j ys → j ∈ mine' ∧ c'.Reads j ys := by
  obtain ⟨σ, b, hb⟩ := C62_start hP.tame h hm
  obtain ⟨σ', s, b'⟩ := C62_local hP h b run
  obtain ⟨m, e, h1, h2, h3⟩ := cloneMut_sole (hb k xs hk hr) s
  refine ⟨m, e, h1, b'.is m _ h2, fun j ys hj hy => ?_⟩
  have := h3 j _ (hb j ys hj hy)
  exact ⟨(b'.mem j).2 (by rw [this]; exact Option.some_ne_none _), b'.is j _ this⟩

/-- C62: to replace the items of a slice one by one, through `&mut`, replaces all of them, and nothing else that the thread can see. -/
theorem C62_map (hP : PStrict P) (h : Conf.PReach P zst c) (hm : ∀ k, k ∈ mine → ∃ v, c.Sees k v) {k : Nat} {xs : List α} (hk : k ∈ mine)
    (hr : c.Reads k xs) {f : α → α} {r : Except Fault Unit} (run : Acts P c mine (mapMut f k) c' mine' r) :
    r = .ok () ∧ c'.Reads k (xs.map f) ∧ ∀ j ys, j ≠ k → j ∈ mine → c.Reads j ys → j ∈ mine' ∧ c'.Reads j ys := by
  obtain ⟨σ, b, hb⟩ := C62_start hP.tame h hm
  obtain ⟨σ', s, b'⟩ := C62_local hP h b run
  cases s with
  | len hk' s =>
    rw [hb k xs hk hr] at hk'; cases hk'
    obtain ⟨e, h1, h2⟩ := mapFrom_sole (hb k xs hk hr) (by omega) s
    refine ⟨e, ?_, fun j ys hne hj hy => ?_⟩
    · have := b'.is k _ h1
      simpa [Conf.Is] using this
    · have := h2 j _ hne (hb j ys hj hy)
      exact ⟨(b'.mem j).2 (by rw [this]; exact Option.some_ne_none _), b'.is j _ this⟩

/-- C62: `split_into_parts` of an `ArcSliceMut`, and any calls of `next` and `next_back` on the iterator: for each of these the thread gets an
`ArcSliceMut` of the part that is next at that end, of those that are left, and `None` once all `2 ^ i` have been given. `lparts` says what the parts are. -/
theorem C62_parts (hP : PStrict P) (h : Conf.PReach P zst c) (hm : ∀ k, k ∈ mine → ∃ v, c.Sees k v) {k : Nat} {xs : List α} (hk : k ∈ mine)
    (hr : c.Reads k xs) {umax i : Nat} (hu : 2 ^ i ≤ umax) {w : List End} {r : Except Fault (List (Option Nat) × Nat × SliceItemsParts)}
    (run : Acts P c mine (intoPartsMut k (2 ^ i) >>= walkPartsMut umax w) c' mine' r) :
    ∃ ms k' it, r = .ok (ms, k', it) ∧ AreParts c'.Reads ms (deqRun w (lparts i xs)).1 ∧ c'.Reads k' (deqRun w (lparts i xs)).2.flatten ∧
      ∀ j ys, j ≠ k → j ∈ mine → c.Reads j ys → j ∈ mine' ∧ c'.Reads j ys := by
  obtain ⟨σ, b, hb⟩ := C62_start hP.tame h hm
  obtain ⟨σ', s, b'⟩ := C62_local hP h b run
  have hσ := hb k xs hk hr
  have hnew : SliceItemsParts.new ⟨0, xs.length⟩ (2 ^ i) = .ok (psAt umax i 0 0 xs) := by
    have := SliceItemsParts.new_pow (Rc.posCtx umax xs.length) i ⟨0, xs.length⟩
    rwa [enc_pos] at this
  have first : ∀ {σ1 : Store α} {r}, Sole σ (intoPartsMut k (2 ^ i)) σ1 r → σ1 = σ ∧ r = .ok (k, psAt umax i 0 0 xs) := by
    intro σ1 r hs
    cases hs with
    | len hk' hs =>
      rw [hσ] at hk'; cases hk'
      simp only [hnew] at hs
      cases hs
      exact ⟨rfl, rfl⟩
  rcases sole_bind s with ⟨σ1, p, h1, h2⟩ | ⟨f, h1, _⟩
  · obtain ⟨rfl, e⟩ := first h1
    cases e
    obtain ⟨ms, k', it, e, h3, h4, h5⟩ := walkPartsMut_sole (xs := xs) hu (f := 0) (b := 0) (Nat.zero_le _)
      (by rw [win_zero, lparts_flatten]; exact hσ) h2
    rw [win_zero] at h3 h4
    refine ⟨ms, k', it, e, ?_, b'.is k' _ h4, fun j ys hj hjm hy => ?_⟩
    · have key : ∀ {ms : List (Option Nat)} {yss : List (Option (List α))}, AreParts (fun m ys => σ' m = some (.items ys)) ms yss → AreParts c'.Reads ms yss := by
        intro ms
        induction ms with
        | nil => intro yss h; cases yss <;> exact h
        | cons m ms ih =>
          intro yss h
          cases yss with
          | nil => cases m <;> exact h
          | cons ys yss =>
            cases m <;> cases ys
            · exact ih h
            · exact h
            · exact h
            · exact ⟨b'.is _ _ h.1, ih h.2⟩
      exact key h3
    · have := h5 j _ hj (hb j ys hjm hy)
      exact ⟨(b'.mem j).2 (by rw [this]; exact Option.some_ne_none _), b'.is j _ this⟩
  · cases (first h1).2

/-- C62: `split_into_parts` of an `ArcSliceMut` panics if the number of parts is not a power of two. The slice is gone then, the thread's other handles are
not. -/
theorem C62_no_parts (hP : PStrict P) (h : Conf.PReach P zst c) (hm : ∀ k, k ∈ mine → ∃ v, c.Sees k v) {k : Nat} {xs : List α} (hk : k ∈ mine)
    (hr : c.Reads k xs) {n : Nat} (hn : ∀ i, n ≠ 2 ^ i) {r : Except Fault (Nat × SliceItemsParts)} (run : Acts P c mine (intoPartsMut k n) c' mine' r) :
    r = .error .panic ∧ k ∉ mine' ∧ ∀ j ys, j ≠ k → j ∈ mine → c.Reads j ys → j ∈ mine' ∧ c'.Reads j ys := by
  obtain ⟨σ, b, hb⟩ := C62_start hP.tame h hm
  obtain ⟨σ', s, b'⟩ := C62_local hP h b run
  have hσ := hb k xs hk hr
  have hnew : SliceItemsParts.new ⟨0, xs.length⟩ n = .error .panic := by
    rcases SliceItemsParts.new_cases ⟨0, xs.length⟩ n with ⟨⟨i, hi⟩, _⟩ | ⟨_, h⟩
    · exact absurd hi (hn i)
    · exact h
  cases s with
  | len hk' s =>
    rw [hσ] at hk'; cases hk'
    simp only [hnew] at s
    have keep : ∀ j ys, j ≠ k → j ∈ mine → c.Reads j ys → σ.put k none j = some (.items ys) := by
      intro j ys hj hjm hy
      simp only [Store.put]; rw [if_neg hj, hb j ys hjm hy]
    have fin : Believes c' mine' (σ.put k none) → k ∉ mine' ∧ ∀ j ys, j ≠ k → j ∈ mine → c.Reads j ys → j ∈ mine' ∧ c'.Reads j ys := by
      intro b'
      refine ⟨fun hin => (b'.mem k).1 hin (by simp [Store.put]), fun j ys hj hjm hy => ?_⟩
      have := keep j ys hj hjm hy
      exact ⟨(b'.mem j).2 (by rw [this]; exact Option.some_ne_none _), b'.is j _ this⟩
    cases s with
    | call s1 s2 =>
      cases s2
      refine ⟨rfl, ?_⟩
      cases s1 with
      | gives _ _ hg => cases hg
      | drop => exact fin b'
      | dropPanic => exact fin b'

/-! ## Programs that meet the hypotheses -/

namespace Arc

def mayCall (p : Conf α → Op α → Bool) (c : Conf α) (mine : List Nat) (op : Op α) : Bool :=
  op.isCall && (match op.on with | some k => mine.contains k | none => true) && p c op

/-- Runs a program. For each call it is said what the others do before the call and while it runs. -/
def actsB (p : Conf α → Op α → Bool) : Body α β → List (List (PAct α) × List (PAct α)) → Conf α → List Nat → Option (Conf α × List Nat × Except Fault β)
  | .ret b, _, c, mine => some (c, mine, .ok b)
  | .fault f, _, c, mine => some (c, mine, .error f)
  | .call op next, (x, y) :: ss, c, mine => match aexec p (fun _ k => mine.contains k) c x with
    | some (.ok c0) => if mayCall p c0 mine op then match c0.start op with
      | some c1 => match aexec p (heldB mine op c0.calls.length) c1 y with
        | some (.ok c2) => match c2.calls[c0.calls.length]? with
          | some cl => if cl.fin then match cl.pc with
            | .done res => actsB p (next res cl.out) ss c2 (mine.filter (fun k => op.takes ≠ some k) ++ cl.out)
            | _ => none
            else none
          | none => none
        | _ => none
      | none => none
      else none
    | _ => none
  | .len k next, ss, c, mine => match mine.contains k, readsB c k with
    | true, some xs => actsB p (next xs.length) ss c mine
    | _, _ => none
  | .get k i next, ss, c, mine => match mine.contains k, readsB c k with
    | true, some xs => actsB p (next xs[i]?) ss c mine
    | _, _ => none
  | .set k i x next, ss, c, mine => match mine.contains k, c.get k with
    | true, some en => if Conf.writable en then match c.write en i x with
      | .ok c1 => actsB p next ss c1 mine
      | .error _ => none
      else none
    | _, _ => none
  | _, _, _, _ => none

theorem actsB_acts {p : Conf α → Op α → Bool} {b : Body α β} : ∀ {ss : List (List (PAct α) × List (PAct α))} {c c' : Conf α} {mine mine' : List Nat}
    {r : Except Fault β}, actsB p b ss c mine = some (c', mine', r) → Acts (fun c op => p c op = true) c mine b c' mine' r := by
  induction b with
  | ret b => intro ss c c' mine mine' r h; simp only [actsB] at h; cases h; exact .ret .refl
  | fault f => intro ss c c' mine mine' r h; simp only [actsB] at h; cases h; exact .fault .refl
  | call op next ih =>
    intro ss c c' mine mine' r h
    cases ss with
    | nil => simp [actsB] at h
    | cons s ss =>
      obtain ⟨x, y⟩ := s
      simp only [actsB] at h
      split at h
      · next c0 e0 =>
        split at h
        · next hc =>
          simp only [mayCall, Bool.and_eq_true] at hc
          split at h
          · next c1 e1 =>
            split at h
            · next c2 e2 =>
              split at h
              · next cl e3 =>
                split at h
                · next hf =>
                  split at h
                  · next res e4 =>
                    have h0 := aexec_apart e0
                    simp only [List.contains_iff_mem] at h0
                    refine .call h0 hc.1.1 (fun k hk => ?_) hc.2 e1 (aexec_held e2) e3 hf e4 (ih _ _ h)
                    have := hc.1.2
                    rw [hk] at this
                    simpa using this
                  · cases h
                · cases h
              · cases h
            · cases h
          · cases h
        · cases h
      · cases h
  | weakNew next ih => intro ss c c' mine mine' r h; simp [actsB] at h
  | endMut k next ih => intro ss c c' mine mine' r h; simp [actsB] at h
  | len k next ih =>
    intro ss c c' mine mine' r h
    simp only [actsB] at h
    split at h
    · next xs h1 h2 => exact .len .refl (by simpa using h1) (readsB_reads h2) (ih _ h)
    · cases h
  | get k i next ih =>
    intro ss c c' mine mine' r h
    simp only [actsB] at h
    split at h
    · next xs h1 h2 => exact .get .refl (by simpa using h1) (readsB_reads h2) (ih _ h)
    · cases h
  | set k i x next ih =>
    intro ss c c' mine mine' r h
    simp only [actsB] at h
    split at h
    · next en h1 h2 =>
      split at h
      · next hw =>
        split at h
        · next c1 e => exact .set .refl (by simpa using h1) h2 hw e (ih h)
        · cases h
      · cases h
    · cases h

def endOf (o : Option (Conf α × List Nat × Except Fault β)) : Conf α := match o with
  | some (c, _) => c
  | none => Conf.init false

theorem acts_of {p : Conf α → Op α → Bool} {b : Body α β} {ss : List (List (PAct α) × List (PAct α))} {m : List Nat} {x : β}
    (h : ((actsB p b ss c mine).map fun o => (o.2.1, o.2.2.toOption)) = some (m, some x)) :
    Acts (fun c op => p c op = true) c mine b (endOf (actsB p b ss c mine)) m (.ok x) := by
  refine actsB_acts (ss := ss) ?_
  revert h
  cases actsB p b ss c mine with
  | none => exact fun h => nomatch h
  | some o =>
    obtain ⟨c1, m1, r⟩ := o
    cases r with
    | error f => intro h; simp [Except.toOption] at h
    | ok y => intro h; simp [Except.toOption] at h; obtain ⟨rfl, rfl⟩ := h; rfl

theorem acts_of_error {p : Conf α → Op α → Bool} {b : Body α β} {ss : List (List (PAct α) × List (PAct α))} {m : List Nat} {f : Fault}
    (h : ((actsB p b ss c mine).map fun o => (o.2.1, match o.2.2 with | .error f => some f | .ok _ => none)) = some (m, some f)) :
    Acts (fun c op => p c op = true) c mine b (endOf (actsB p b ss c mine)) m (.error f) := by
  refine actsB_acts (ss := ss) ?_
  revert h
  cases actsB p b ss c mine with
  | none => exact fun h => nomatch h
  | some o =>
    obtain ⟨c1, m1, r⟩ := o
    cases r with
    | ok y => intro h; simp at h
    | error g => intro h; simp at h; obtain ⟨rfl, rfl⟩ := h; rfl

/-- One thread has an `ArcSliceMut`, handle 4, of the right half of five items. Another has an `ArcSlice` of the left half, handle 1. -/
def localPrelude : List (PAct Nat) := apartPrelude ++ [.act (.op (.intoMut 2)), .act (.run 5 30)]

/-- While the first thread walks over its items, the second one calls `into_mut`, writes, and walks over its own. -/
def localWalk : List (List (PAct Nat) × List (PAct Nat)) :=
  [([], [.act (.run 6 1), .act (.op (.intoMut 1)), .act (.run 7 30), .act (.run 6 30)]),
    ([.act (.wr 6 0 7)], [.act (.run 8 1), .act (.op (.next .back 6)), .act (.run 9 30), .act (.run 8 30)]),
    ([], [.act (.run 10 30)]), ([], [.act (.run 11 30)])]

/-- The second thread calls `into_mut`, writes, and drops what it has. -/
def localParts : List (List (PAct Nat) × List (PAct Nat)) :=
  [([.act (.op (.intoMut 1)), .act (.run 6 1)], [.act (.run 6 30), .act (.run 7 1), .act (.wr 5 0 7), .act (.run 7 30)]),
    ([], [.act (.op (.drop 5)), .act (.run 8 1), .act (.run 9 30), .act (.run 8 30)]), ([], [.act (.run 10 30)])]

abbrev strictB : Conf Nat → Op Nat → Bool := fun c op => c.strict op

theorem local_reach : Conf.PReach (fun c op => strictB c op = true) false (pafter localPrelude) := pexec_reach (as := localPrelude) .init rfl

theorem local_sees : ∀ k, k ∈ [4] → ∃ v, (pafter localPrelude).Sees k v := by
  intro k hk
  rw [List.mem_singleton] at hk
  subst hk
  obtain ⟨b, o, h | h, _⟩ : (pafter localPrelude).Reads 4 [3, 4, 5] := readsB_reads (by decide +kernel)
  · exact ⟨_, h⟩
  · exact ⟨_, h⟩

end Arc

open Arc

/-- The hypotheses of C62 hold … -/
example : PStrict (fun c op => strictB c op = true) ∧ Conf.PReach (fun c op => strictB c op = true) false (pafter localPrelude) ∧
    (∀ k, k ∈ [4] → ∃ v, (pafter localPrelude).Sees k v) ∧ (pafter localPrelude).Reads 4 [3, 4, 5] :=
  ⟨pstrict_strict, local_reach, local_sees, readsB_reads (by decide +kernel)⟩

/-- … C62_iterate: of a walk among calls of another thread, which has replaced an item of its half and taken another in the meantime … -/
example : ∃ c', Acts (fun c op => strictB c op = true) (pafter localPrelude) [4] (walk [.front, .back, .front, .front] 4) c' [10]
    (.ok ([some 3, some 5, some 4, none], 10)) ∧ c'.Reads 10 [] ∧ c'.Reads 8 [7] :=
  ⟨_, acts_of (ss := localWalk) (by decide +kernel), readsB_reads (by decide +kernel), readsB_reads (by decide +kernel)⟩

/-- … C62_clone … -/
example : ∃ c', Acts (fun c op => strictB c op = true) (pafter localPrelude) [4] (cloneMut 4) c' [4, 6] (.ok 6) ∧
    c'.Reads 4 [3, 4, 5] ∧ c'.Reads 6 [3, 4, 5] ∧ c'.Reads 5 [7, 2] :=
  ⟨_, acts_of (ss := localParts.take 1) (by decide +kernel), readsB_reads (by decide +kernel), readsB_reads (by decide +kernel), readsB_reads (by decide +kernel)⟩

/-- … C62_map … -/
example : ∃ c', Acts (fun c op => strictB c op = true) (pafter localPrelude) [4] (mapMut (· + 10) 4) c' [4] (.ok ()) ∧
    c'.Reads 4 [13, 14, 15] ∧ c'.Reads 1 [1, 2] :=
  ⟨_, acts_of (ss := []) (by decide +kernel), readsB_reads (by decide +kernel), readsB_reads (by decide +kernel)⟩

/-- … C62_parts: three of four parts … -/
example : ∃ c' it, Acts (fun c op => strictB c op = true) (pafter localPrelude) [4] (intoPartsMut 4 4 >>= walkPartsMut 100 [.front, .back, .back]) c' [6, 8, 10, 11]
    (.ok ([some 6, some 8, some 10], 11, it)) ∧ c'.Reads 6 [] ∧ c'.Reads 8 [5] ∧ c'.Reads 10 [4] ∧ c'.Reads 11 [3] :=
  ⟨_, ⟨0, 3, 4, 1, 2⟩, acts_of (ss := localParts) (by decide +kernel), readsB_reads (by decide +kernel), readsB_reads (by decide +kernel),
    readsB_reads (by decide +kernel), readsB_reads (by decide +kernel)⟩

/-- … C62_no_parts. -/
example : (∀ i, 3 ≠ 2 ^ i) ∧ ∃ c', Acts (fun c op => strictB c op = true) (pafter localPrelude) [4] (intoPartsMut 4 3) c' [] (.error .panic) ∧ c'.Reads 5 [7, 2] := by
  refine ⟨fun i => ?_, _, acts_of_error (ss := localParts.take 1) (by decide +kernel), readsB_reads (by decide +kernel)⟩
  match i with
  | 0 => decide
  | 1 => decide
  | i + 2 => have := Nat.two_pow_pos i; rw [Nat.pow_succ, Nat.pow_succ]; omega

/-- The parts of three items. -/
example : lparts 2 [3, 4, 5] = [[], [3], [4], [5]] := rfl

end Verif
