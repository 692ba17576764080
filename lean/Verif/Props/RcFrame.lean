import Verif.Props.RcExclusive
/-!
# Handles do not disturb each other (C24-C29)
-/

namespace Verif
open Spec Rc
variable {α : Type} {umax : Nat} {zst : Bool} {ops : List (Op α)} {s : State α}

/-! ## Nothing but the last handle releases anything -/

/-- A call that changes no item before releasing, and after which the same items are covered
and the same memory is kept, releases nothing. -/
theorem settle_same {w : World α} {T : List Tok} (R : Rel umax s w T) (hT : T = []) {w' : World α} (hi : w'.items = w.items) (hm : w'.mem = w.mem)
    (hc : ∀ b i, w.Covered b i → w'.Covered b i) (hk : ∀ b, w.Kept b → w'.Kept b) : w'.settle.items = w.items ∧ w'.settle.mem = w.mem := by
  subst hT
  have I : Inv s.h (tabToks umax s.hs) := by simpa using R.inv
  constructor
  · funext b i
    cases hl : w.items b i with
    | live a =>
      have hl2 : s.h.slot b i = .live a := by rw [← R.core.items]; exact hl
      obtain ⟨k, y, h1, h2⟩ := hc b i (World.anyHand_iff.1 ((cov_iff R b i).1 (I.live_cov (tabToks_quiet umax s.hs) hl2)))
      rw [World.settle_live _ h1 h2, hi]; exact hl
    | _ => simp only [World.settle, hi, hl]
  · funext b
    simp only [World.settle, hm]
    cases hb : w.mem b with
    | false => rfl
    | true =>
      have := hk b (World.anyHand_iff.1 ((hold_iff R b).1 (I.mem_hold (tabToks_quiet umax s.hs) (by rw [← R.core.mem]; exact hb))))
      rw [Bool.true_and]; exact World.anyHand_iff.2 this

/-- C24: making, cloning, upgrading or dropping a `WeakSlice` changes no item and frees no
memory. -/
theorem C24_weak_inert {op : Op α} {s' : State α} (h : after umax zst ops = .ok s) (h' : after umax zst (ops ++ [op]) = .ok s')
    (hop : op = .weakNew ∨ (∃ k, op = .downgrade k) ∨ (∃ k, op = .upgrade k) ∨
      ∃ k d g, s.get k = some (.weak d g) ∧ (op = .clone k ∨ op = .drop k)) :
    s'.h.slot = s.h.slot ∧ s'.h.sk.mem = s.h.sk.mem := by
  have R := Rel.of_after h
  have R' := Rel.of_after h'
  have key : ((World.after umax zst ops).act umax op).1.items = (World.after umax zst ops).items ∧
      ((World.after umax zst ops).act umax op).1.mem = (World.after umax zst ops).mem ∧
      (∀ b i, (World.after umax zst ops).Covered b i → ((World.after umax zst ops).act umax op).1.Covered b i) ∧
      (∀ b, (World.after umax zst ops).Kept b → ((World.after umax zst ops).act umax op).1.Kept b) := by
    have W := R.wf
    have hweak : ∀ k d g, s.get k = some (.weak d g) → ∃ y, (World.after umax zst ops).get k = some y ∧
        ((∃ f p, y = .weak f p) ∨ y = .weakNone) := by
      intro k d g hk
      rcases R.at_ k with ⟨e, _⟩ | ⟨x, y, e1, e2, hr⟩
      · rw [hk] at e; cases e
      · rw [hk] at e1; cases e1
        refine ⟨y, e2, ?_⟩
        cases hr with
        | weak d g f p _ => exact .inl ⟨f, p, rfl⟩
        | weakNone g => exact .inr rfl
    -- handles are kept, up to one weak handle
    have keep : ∀ w' : World α, (∃ l, w'.fams = (World.after umax zst ops).fams ++ l) →
        (∀ k y, (World.after umax zst ops).get k = some y → w'.get k = some y ∨ (∃ f p, y = .weak f p) ∨ y = .weakNone) →
        (∀ b i, (World.after umax zst ops).Covered b i → w'.Covered b i) ∧ (∀ b, (World.after umax zst ops).Kept b → w'.Kept b) := by
      rintro w' ⟨l, hl⟩ hg
      constructor
      · rintro b i ⟨k, y, h1, h2⟩
        rcases hg k y h1 with h3 | ⟨f, p, rfl⟩ | rfl
        · exact ⟨k, y, h3, by rw [World.covers_same hl (W.famOk h1)]; exact h2⟩
        · cases h2
        · cases h2
      · rintro b ⟨k, y, h1, h2⟩
        rcases hg k y h1 with h3 | ⟨f, p, rfl⟩ | rfl
        · exact ⟨k, y, h3, by rw [World.keeps_same hl (W.famOk h1)]; exact h2⟩
        · cases h2
        · cases h2
    have hf := World.act_fams umax (World.after umax zst ops) op
    rcases hop with rfl | ⟨k, rfl⟩ | ⟨k, rfl⟩ | ⟨k, d, g, hk, rfl | rfl⟩
    · refine ⟨rfl, rfl, keep _ hf fun k y hy => .inl (World.act_get umax _ _ hy (by simp [Op.on]))⟩
    · refine ⟨?_, ?_, keep _ hf fun k' y hy => ?_⟩
      · simp only [World.act]; split <;> rfl
      · simp only [World.act]; split <;> rfl
      · left; simp only [World.act]; split
        · exact World.get_push_some hy
        · exact hy
    · refine ⟨?_, ?_, keep _ hf fun k' y hy => ?_⟩
      · simp only [World.act]; (repeat' split) <;> rfl
      · simp only [World.act]; (repeat' split) <;> rfl
      · left; simp only [World.act]; repeat' split
        · exact World.get_push_some hy
        all_goals exact hy
    · obtain ⟨y0, hy0, hw⟩ := hweak k d g hk
      rcases hw with ⟨f, p, rfl⟩ | rfl
      · refine ⟨by simp only [World.act, hy0]; rfl, by simp only [World.act, hy0]; rfl, keep _ hf fun k' y hy => ?_⟩
        left; simp only [World.act, hy0]; exact World.get_push_some hy
      · refine ⟨by simp only [World.act, hy0]; rfl, by simp only [World.act, hy0]; rfl, keep _ hf fun k' y hy => ?_⟩
        left; simp only [World.act, hy0]; exact World.get_push_some hy
    · obtain ⟨y0, hy0, hw⟩ := hweak k d g hk
      refine ⟨by simp only [World.act, hy0]; rfl, by simp only [World.act, hy0]; rfl, keep _ hf fun k' y hy => ?_⟩
      by_cases e : k' = k
      · subst e; rw [hy0] at hy; cases hy; exact .inr hw
      · left; simp only [World.act, hy0]; rw [World.get_del_ne e]; exact hy
  obtain ⟨k1, k2, k3, k4⟩ := key
  have := settle_same R rfl k1 k2 k3 k4
  rw [← R'.core.items, ← R'.core.mem, World.after_snoc, ← R.core.items, ← R.core.mem]
  exact this

example : ∃ s, after 100 false demo2 = .ok s ∧ ∃ g, s.get 2 = some (.weak (some 4) g) :=
  ⟨(after 100 false demo2).toOption.get (by decide), rfl, _, rfl⟩

/-! ## Items change only through the handle -/

/-- C25: as long as a handle is not used itself, it shows the same memory. -/
theorem C25_same_memory {k : Nat} {more : List (Op α)} {s' : State α} (h : after umax zst ops = .ok s) (hk : s.get k ≠ none) (hu : Unused k more)
    (h' : after umax zst (ops ++ more) = .ok s') (b i : Nat) : s'.Sees umax k b i ↔ s.Sees umax k b i := by
  have R := Rel.of_after h
  have R' := Rel.of_after h'
  rcases R.at_ k with ⟨e, _⟩ | ⟨x, y, e1, e2, hr⟩
  · exact absurd e hk
  · have g := World.run_get umax more e2 hu
    rw [← World.after_append] at g
    obtain ⟨l, hl⟩ := World.run_fams umax more (World.after umax zst ops)
    rw [← World.after_append] at hl
    rw [R'.sees_of g, R.sees_of e2, World.covers_same hl (R.wf.famOk e2)]

/-- C25: ... and the items in it do not change: nothing that is done with other handles can
drop, move or overwrite them. -/
theorem C25_same_items {k : Nat} {more : List (Op α)} {s' : State α} (h : after umax zst ops = .ok s) (hu : Unused k more)
    (h' : after umax zst (ops ++ more) = .ok s') {b i : Nat} (hs : s.Sees umax k b i) : s'.h.slot b i = s.h.slot b i := by
  have R := Rel.of_after h
  have R' := Rel.of_after h'
  obtain ⟨y, y1, y2⟩ := R.sees_iff.1 hs
  rw [← R.core.items, ← R'.core.items]
  clear h h' hs R R'
  induction more generalizing ops with
  | nil => rw [List.append_nil]
  | cons op more ih =>
    have e2 : ops ++ op :: more = (ops ++ [op]) ++ more := by simp
    have W := after_wf umax zst ops
    have ho := hu op (List.mem_cons_self ..)
    obtain ⟨l, hl⟩ := World.call_fams umax (World.after umax zst ops) op
    rw [e2, ih (ops := ops ++ [op]) (fun o ho => hu o (List.mem_cons_of_mem _ ho))
      (by rw [World.after_snoc]; exact World.call_get umax op y1 ho)
      (by rw [World.after_snoc, World.covers_same hl (W.famOk y1)]; exact y2), World.after_snoc]
    exact World.call_frame umax W op y1 ho y2

/-- C25: what a handle shows does not depend on calls on other handles. -/
theorem C25_read_stable {k : Nat} {more : List (Op α)} {xs : List α} (hr : answer umax zst ops (.read k) = .ok (.items xs)) (hu : Unused k more) :
    answer umax zst (ops ++ more) (.read k) = .ok (.items xs) := by
  obtain ⟨s, h, R⟩ := after_rel umax zst ops
  obtain ⟨s', h', R'⟩ := after_rel umax zst (ops ++ more)
  rw [← hr, answer_eq, answer_eq]
  rw [answer_eq] at hr
  cases e2 : (World.after umax zst ops).get k with
  | none => simp only [World.act, e2] at hr; cases hr
  | some y =>
    have g := World.run_get umax more e2 hu
    rw [← World.after_append] at g
    obtain ⟨l, hl⟩ := World.run_fams umax more (World.after umax zst ops)
    rw [← World.after_append] at hl
    have hv := World.view_same hl (R.wf.famOk e2)
    simp only [World.act, e2, g, hv]
    cases hvw : (World.after umax zst ops).view y with
    | none => rfl
    | some q =>
      obtain ⟨b, r⟩ := q
      simp only
      rw [World.look_congr]
      intro i hi
      rw [R.core.items, R'.core.items]
      refine C25_same_items h hu h' (R.sees_iff.2 ⟨y, e2, ?_⟩)
      rw [R.wf.view e2 hvw]; exact hi

example : answer 100 false demo3 (.read 1) = .ok (.items [10, 11]) ∧ Unused (α := Nat) 1 [.intoMut 0, .write 0 0 5, .drop 0] ∧
    answer 100 false (demo3 ++ [.intoMut 0, .write 0 0 5, .drop 0]) (.read 1) = .ok (.items [10, 11]) := by
  refine ⟨rfl, ?_, rfl⟩
  intro op h; simp at h; rcases h with rfl | rfl | rfl <;> simp [Op.on]

/-! ## Conversions -/

theorem uniq_hand (h : after umax zst ops = .ok s) {k : Nat} {r : Reg} (hk : s.get k = some (.uniq r)) :
    (World.after umax zst ops).get k = some (.uniq r.buf ⟨r.off, r.len⟩ r.alloc.isSome) := by
  rcases (Rel.of_after h).at_ k with ⟨e, _⟩ | ⟨x, y, e1, e2, hr⟩
  · rw [hk] at e; cases e
  · rw [hk] at e1; cases e1
    cases hr with
    | uniq r _ => exact e2

/-- Which items handles show, in terms of the specification. -/
theorem sees_same {ops' : List (Op α)} {s' : State α} (h : after umax zst ops = .ok s) (h' : after umax zst ops' = .ok s')
    (hc : ∀ k b i, (∃ y, (World.after umax zst ops').get k = some y ∧ (World.after umax zst ops').covers b i y = true) ↔
      ∃ y, (World.after umax zst ops).get k = some y ∧ (World.after umax zst ops).covers b i y = true) :
    ∀ k b i, s'.Sees umax k b i ↔ s.Sees umax k b i := by
  intro k b i
  rw [(Rel.of_after h).sees_iff, (Rel.of_after h').sees_iff]; exact hc k b i

/-- C26: `into_immut` always succeeds, drops and changes nothing, and every handle shows what
it showed. -/
theorem C26_into_immut {k : Nat} {r : Reg} {s1 : State α} (h : after umax zst ops = .ok s) (hk : s.get k = some (.uniq r))
    (h1 : after umax zst (ops ++ [.intoImmut k]) = .ok s1) :
    answer umax zst ops (.intoImmut k) = .ok .done ∧ (∃ d i, s1.get k = some (.strong d i)) ∧
    s1.h.slot = s.h.slot ∧ s1.h.sk.mem = s.h.sk.mem ∧ (∀ k' b i, s1.Sees umax k' b i ↔ s.Sees umax k' b i) := by
  have R := Rel.of_after h
  have R1 := Rel.of_after h1
  have hw := uniq_hand h hk
  have W := R.wf
  have ea : (World.after umax zst ops).act umax (.intoImmut k) =
      (((World.after umax zst ops).newFam ⟨r.buf, ⟨r.off, r.len⟩, r.alloc.isSome⟩).put k
        (.shared (World.after umax zst ops).fams.length []), .done) := by simp only [World.act, hw]
  have ew : World.after umax zst (ops ++ [.intoImmut k]) =
      (((World.after umax zst ops).newFam ⟨r.buf, ⟨r.off, r.len⟩, r.alloc.isSome⟩).put k
        (.shared (World.after umax zst ops).fams.length [])).settle := by
    rw [World.after_snoc]; simp only [World.call, ea]
  have hf : (((World.after umax zst ops).newFam ⟨r.buf, ⟨r.off, r.len⟩, r.alloc.isSome⟩).put k
        (.shared (World.after umax zst ops).fams.length [])).fam (World.after umax zst ops).fams.length =
        ⟨r.buf, ⟨r.off, r.len⟩, r.alloc.isSome⟩ := by simp [World.fam, World.newFam, World.put]
  generalize hw0 : World.after umax zst ops = w at *
  generalize hw1 : ((w.newFam ⟨r.buf, ⟨r.off, r.len⟩, r.alloc.isSome⟩).put k (.shared w.fams.length [])) = w1 at *
  have hfams : w1.fams = w.fams ++ [⟨r.buf, ⟨r.off, r.len⟩, r.alloc.isSome⟩] := by rw [← hw1]; rfl
  have g1 : w1.get k = some (.shared w.fams.length []) := by
    rw [← hw1]; exact World.get_put_self (w := w.newFam _) hw _
  have g2 : ∀ k', k' ≠ k → w1.get k' = w.get k' := by
    intro k' hne; rw [← hw1, World.get_put_ne _ hne]; rfl
  have c1 : ∀ b i, w1.covers b i (.shared w.fams.length []) = w.covers b i (.uniq r.buf ⟨r.off, r.len⟩ r.alloc.isSome) := by
    intro b i; simp only [World.covers, World.rangeOf, hf, Rng.at]
  have k1 : ∀ b, w1.keeps b (.shared w.fams.length []) = w.keeps b (.uniq r.buf ⟨r.off, r.len⟩ r.alloc.isSome) := by
    intro b; simp [World.keeps, World.holdsOf, hf]
  have hcov : ∀ k' b i, (∃ y, w1.get k' = some y ∧ w1.covers b i y = true) ↔ ∃ y, w.get k' = some y ∧ w.covers b i y = true := by
    intro k' b i
    by_cases e : k' = k
    · subst e
      simp only [g1, hw, Option.some.injEq, exists_eq_left', c1]
    · rw [g2 k' e]
      constructor
      · rintro ⟨y, y1, y2⟩; exact ⟨y, y1, by rw [World.covers_same hfams (W.famOk y1)] at y2; exact y2⟩
      · rintro ⟨y, y1, y2⟩; exact ⟨y, y1, by rw [World.covers_same hfams (W.famOk y1)]; exact y2⟩
  have hkp : ∀ b, w.Kept b → w1.Kept b := by
    rintro b ⟨k', y, y1, y2⟩
    by_cases e : k' = k
    · subst e; rw [hw] at y1; cases y1
      exact ⟨k', _, g1, by rw [k1]; exact y2⟩
    · exact ⟨k', y, by rw [g2 k' e]; exact y1, by rw [World.keeps_same hfams (W.famOk y1)]; exact y2⟩
  have hs := settle_same R rfl (w' := w1) (by rw [← hw1]; rfl) (by rw [← hw1]; rfl)
    (by rintro b i ⟨k', y, y1, y2⟩; obtain ⟨y', z1, z2⟩ := (hcov k' b i).2 ⟨y, y1, y2⟩; exact ⟨k', y', z1, z2⟩) hkp
  rw [ew] at R1
  refine ⟨by rw [answer_eq, hw0, ea], ?_, ?_, ?_, ?_⟩
  · rcases R1.at_ k with ⟨_, e⟩ | ⟨x, y, e1, e2, hr⟩
    · rw [World.settle_get, g1] at e; cases e
    · rw [World.settle_get, g1] at e2; cases e2
      cases hr with
      | shared d i _ _ _ => exact ⟨d, i, e1⟩
  · rw [← R1.core.items, ← R.core.items]; exact hs.1
  · rw [← R1.core.mem, ← R.core.mem]; exact hs.2
  · intro k' b i; rw [R1.sees_iff, R.sees_iff]; exact hcov k' b i

/-- C26: the result of `into_immut` can be borrowed mutably and be turned back with
`into_mut`, whatever other handles, weak ones included, exist. -/
theorem C26_back {k : Nat} {r : Reg} {s2 : State α} (h : after umax zst ops = .ok s) (hk : s.get k = some (.uniq r))
    (h2 : after umax zst (ops ++ [.intoImmut k, .intoMut k]) = .ok s2) (j : Nat) (a : α) :
    answer umax zst (ops ++ [.intoImmut k]) (.getMut k j a) = .ok .done ∧
    answer umax zst (ops ++ [.intoImmut k]) (.intoMut k) = .ok .done ∧
    s2.h.slot = s.h.slot ∧ s2.h.sk.mem = s.h.sk.mem ∧ (∀ k' b i, s2.Sees umax k' b i ↔ s.Sees umax k' b i) ∧
    ∃ r', s2.get k = some (.uniq r') ∧ r'.buf = r.buf ∧ r'.off = r.off ∧ r'.len = r.len ∧ r'.alloc.isSome = r.alloc.isSome := by
  obtain ⟨s1, h1, R1⟩ := after_rel umax zst (ops ++ [.intoImmut k])
  obtain ⟨_, _, i1, i2, i3⟩ := C26_into_immut h hk h1
  have R := Rel.of_after h
  have hw := uniq_hand h hk
  have W := R.wf
  have ew : World.after umax zst (ops ++ [.intoImmut k]) =
      (((World.after umax zst ops).newFam ⟨r.buf, ⟨r.off, r.len⟩, r.alloc.isSome⟩).put k
        (.shared (World.after umax zst ops).fams.length [])).settle := by
    rw [World.after_snoc]; simp only [World.call, World.act, hw]
  have g1 : (World.after umax zst (ops ++ [.intoImmut k])).get k = some (.shared (World.after umax zst ops).fams.length []) := by
    rw [ew]; exact World.get_put_self (w := (World.after umax zst ops).newFam _) hw _
  have g2 : ∀ k', k' ≠ k → (World.after umax zst (ops ++ [.intoImmut k])).get k' = (World.after umax zst ops).get k' := by
    intro k' hne; rw [ew, World.settle_get, World.get_put_ne _ hne]; rfl
  have n1 : ¬ (World.after umax zst (ops ++ [.intoImmut k])).OtherStrong k (World.after umax zst ops).fams.length [] := by
    rintro ⟨k', q, x1, x2, _⟩
    rw [g2 k' x1] at x2
    exact Nat.lt_irrefl _ (W.fam (.inl x2))
  have n2 : ¬ (World.after umax zst (ops ++ [.intoImmut k])).WeakBelow (World.after umax zst ops).fams.length [] := by
    rintro ⟨k', q, x2, _⟩
    have x1 : k' ≠ k := by rintro rfl; rw [g1] at x2; cases x2
    rw [g2 k' x1] at x2
    exact Nat.lt_irrefl _ (W.fam (.inr x2))
  have a1 := (C20_into_mut_iff g1).1.2 n1
  have e : ops ++ [.intoImmut k, .intoMut k] = ops ++ [.intoImmut k] ++ [.intoMut k] := by simp
  rw [e] at h2
  obtain ⟨j1, j2, ⟨r', j3⟩, j4, _⟩ := C21_same_items h1 a1 h2
  refine ⟨(C18_get_mut_iff g1 j a).1.2 ⟨n1, n2⟩, a1, j1.trans i1, j2.trans i2, fun k' b i => (j4 k' b i).trans (i3 k' b i), r', j3, ?_⟩
  have hw2 := uniq_hand h2 j3
  have hf : (World.after umax zst (ops ++ [.intoImmut k])).fam (World.after umax zst ops).fams.length =
      ⟨r.buf, ⟨r.off, r.len⟩, r.alloc.isSome⟩ := by
    rw [ew]; simp [World.fam, World.newFam, World.put, World.settle]
  have hc : (World.after umax zst (ops ++ [.intoImmut k])).otherHand k (World.sharedConflict (World.after umax zst ops).fams.length []) = false := by
    rw [← Bool.not_eq_true, World.otherStrong_iff]; exact n1
  rw [World.after_snoc] at hw2
  simp only [World.call, World.act, g1, hc, Bool.false_eq_true, if_false, World.settle_get] at hw2
  rw [World.get_put_self g1] at hw2
  simp only [World.rangeOf, World.holdsOf, hf, Rng.at, List.isEmpty_nil, Bool.true_or, Bool.and_true, Option.some.injEq, Hand.uniq.injEq,
    Rng.mk.injEq] at hw2
  exact ⟨hw2.1.symm, hw2.2.1.1.symm, hw2.2.1.2.symm, hw2.2.2.symm⟩

/-- C26: the other way round: what `into_mut` returned can be made shared again, and is then
not related to anything that existed before. -/
theorem C26_mut_immut {k : Nat} {s2 : State α} (h : after umax zst ops = .ok s) (hm : answer umax zst ops (.intoMut k) = .ok .done)
    (h2 : after umax zst (ops ++ [.intoMut k, .intoImmut k]) = .ok s2) (j : Nat) (a : α) :
    answer umax zst (ops ++ [.intoMut k]) (.intoImmut k) = .ok .done ∧
    answer umax zst (ops ++ [.intoMut k, .intoImmut k]) (.getMut k j a) = .ok .done ∧
    s2.h.slot = s.h.slot ∧ s2.h.sk.mem = s.h.sk.mem ∧ (∀ k' b i, s2.Sees umax k' b i ↔ s.Sees umax k' b i) := by
  obtain ⟨s1, h1, _⟩ := after_rel umax zst (ops ++ [.intoMut k])
  obtain ⟨i1, i2, ⟨r, i3⟩, i4, _⟩ := C21_same_items h hm h1
  have e : ops ++ [.intoMut k, .intoImmut k] = ops ++ [.intoMut k] ++ [.intoImmut k] := by simp
  rw [e] at h2 ⊢
  obtain ⟨j1, _, j2, j3, j4⟩ := C26_into_immut h1 i3 h2
  obtain ⟨s3, h3, _⟩ := after_rel umax zst (ops ++ [.intoMut k] ++ [.intoImmut k, .intoMut k])
  exact ⟨j1, (C26_back h1 i3 h3 j a).1, j2.trans i1, j3.trans i2, fun k' b i => (j4 k' b i).trans (i4 k' b i)⟩

example : (after 100 false (demo2 ++ [.drop 0, .intoMut 1])).map (·.get 1) = .ok (some (.uniq ⟨0, 0, 2, some 0⟩)) ∧
    answer 100 false (demo2 ++ [.drop 0, .intoMut 1, .intoImmut 1]) (.getMut 1 0 5) = .ok .done := ⟨rfl, rfl⟩

/-! ## Deep copies -/

/-- C27: a cloned unique slice has its own buffer, that no handle ever referred to, and the
same items, in order. -/
theorem C27_deep_copy {k : Nat} {r : Reg} {s' : State α} (h : after umax zst ops = .ok s) (hk : s.get k = some (.uniq r))
    (h' : after umax zst (ops ++ [.clone k]) = .ok s') :
    answer umax zst ops (.clone k) = .ok .handle ∧
    answer umax zst (ops ++ [.clone k]) (.read s.hs.length) = answer umax zst ops (.read k) ∧
    answer umax zst (ops ++ [.clone k]) (.read k) = answer umax zst ops (.read k) ∧
    (∀ b i, s'.Sees umax s.hs.length b i → s.h.slot b i = .absent ∧ ∀ k', k' ≠ s.hs.length → ¬ s'.Sees umax k' b i) := by
  have R := Rel.of_after h
  have R' := Rel.of_after h'
  have hw := uniq_hand h hk
  have W := R.wf
  have e27 : (World.after umax zst (ops ++ [.clone k])).get s.hs.length =
      some (.uniq (World.after umax zst ops).nbuf ⟨0, r.len⟩
        (!(World.after umax zst ops).zst && !((World.after umax zst ops).look r.buf ⟨r.off, r.len⟩).isEmpty)) := by
    rw [World.after_snoc]
    simp only [World.call, World.act, hw, World.settle_get, R.hs_len]
    exact World.get_push_self (w := (World.after umax zst ops).newBuf _)
  have hlive : ∀ i, r.off ≤ i → i < r.off + r.len → ∃ a, (World.after umax zst ops).items r.buf i = .live a := by
    intro i h1 h2
    exact W.live hw (by simp [World.covers, Rng.has, h1, h2])
  refine ⟨by rw [answer_eq]; simp only [World.act, hw], ?_, ?_, ?_⟩
  · rw [answer_eq, answer_eq]
    simp only [World.act, e27, hw, World.view]
    congr 2
    refine World.look_shift fun i hi => ?_
    have hc : ((World.after umax zst ops).act umax (.clone k)).1.covers (World.after umax zst ops).nbuf (0 + i)
        (.uniq (World.after umax zst ops).nbuf ⟨0, r.len⟩
      (!(World.after umax zst ops).zst && !((World.after umax zst ops).look r.buf ⟨r.off, r.len⟩).isEmpty)) = true := by
      simp [World.covers, Rng.has, hi]
    rw [World.after_snoc] at e27 ⊢
    refine (World.settle_live ((World.after umax zst ops).act umax (.clone k)).1 e27 hc).trans ?_
    obtain ⟨a, ha, hg⟩ := World.look_get (w := World.after umax zst ops) (b := r.buf) (off := r.off) (len := r.len) (i := i)
      (fun j hj => hlive _ (by omega) (by omega)) hi
    simp only [World.act, hw, World.push, World.newBuf, if_true, Nat.zero_add, hg, ha]
  · have g : (World.after umax zst (ops ++ [.clone k])).get k = some (.uniq r.buf ⟨r.off, r.len⟩ r.alloc.isSome) := by
      rw [World.after_snoc]
      simp only [World.call, World.act, hw, World.settle_get]
      exact World.get_push_some (w := (World.after umax zst ops).newBuf _) hw
    rw [answer_eq, answer_eq]
    simp only [World.act, g, hw, World.view]
    congr 2
    refine World.look_congr fun i hi => ?_
    rw [World.after_snoc] at g ⊢
    refine (World.settle_live ((World.after umax zst ops).act umax (.clone k)).1 (b := r.buf) (i := i) g (by simp [World.covers, hi])).trans ?_
    obtain ⟨a, ha⟩ := hlive i (by simp [Rng.has] at hi; omega) (by simp [Rng.has] at hi; omega)
    have hb : r.buf ≠ (World.after umax zst ops).nbuf := by
      intro e; rw [W.fresh r.buf i (by omega)] at ha; cases ha
    simp only [World.act, hw, World.push, World.newBuf, if_neg hb]
  · intro b i hs
    rw [R'.sees_of e27] at hs
    simp only [World.covers, Bool.and_eq_true, beq_iff_eq] at hs
    obtain ⟨rfl, hs⟩ := hs
    refine ⟨by rw [← R.core.items]; exact W.fresh _ _ (Nat.le_refl _), fun k' hne hk' => ?_⟩
    obtain ⟨y, y1, y2⟩ := R'.sees_iff.1 hk'
    obtain ⟨f, p, p', z1, _⟩ := R'.wf.disj e27 y1 (Ne.symm hne) (by simp [World.covers, hs]) y2
    cases z1

/-- C27: what is done with the copy later does not show in the original, and conversely. -/
theorem C27_independent {k : Nat} {r : Reg} {more : List (Op α)} (h : after umax zst ops = .ok s) (hk : s.get k = some (.uniq r)) :
    (Unused k more → answer umax zst (ops ++ .clone k :: more) (.read k) = answer umax zst ops (.read k)) ∧
    (Unused s.hs.length more → answer umax zst (ops ++ .clone k :: more) (.read s.hs.length) = answer umax zst ops (.read k)) := by
  obtain ⟨s', h', _⟩ := after_rel umax zst (ops ++ [.clone k])
  obtain ⟨_, c1, c2, _⟩ := C27_deep_copy h hk h'
  have e : ops ++ .clone k :: more = ops ++ [.clone k] ++ more := by simp
  have hr : ∃ xs, answer umax zst ops (.read k) = .ok (.items xs) := by
    rw [answer_eq]; simp only [World.act, uniq_hand h hk, World.view]; exact ⟨_, rfl⟩
  obtain ⟨xs, hr⟩ := hr
  rw [e, hr]
  exact ⟨fun hu => C25_read_stable (c2.trans hr) hu, fun hu => C25_read_stable (c1.trans hr) hu⟩

example : (after 100 false [.mutNew [1, 2, 3]]).map (·.get 0) = .ok (some (.uniq ⟨0, 0, 3, some 0⟩)) ∧
    Unused (α := Nat) 0 [.write 1 0 9, .drop 1] ∧
    answer 100 false [.mutNew [1, 2, 3], .clone 0, .write 1 0 9] (.read 1) = .ok (.items [9, 2, 3]) ∧
    answer 100 false [.mutNew [1, 2, 3], .clone 0, .write 1 0 9] (.read 0) = .ok (.items [1, 2, 3]) := by
  refine ⟨rfl, ?_, rfl, rfl⟩
  intro op h; simp at h; rcases h with rfl | rfl <;> simp [Op.on]

/-! ## Subslices -/

/-- C28: two handles on the same member of a family are the same pointer and the same guard
in the code, so show the same memory. -/
theorem C28_same_member {k k' f : Nat} {p : List Side} (h : after umax zst ops = .ok s)
    (hk : (World.after umax zst ops).get k = some (.shared f p)) (hk' : (World.after umax zst ops).get k' = some (.shared f p)) :
    (∀ b i, s.Sees umax k b i ↔ s.Sees umax k' b i) ∧ ∃ x, s.get k = some x ∧ s.get k' = some x := by
  have R := Rel.of_after h
  have I : Inv s.h (tabToks umax s.hs ++ []) := R.inv
  have get : ∀ k, (World.after umax zst ops).get k = some (.shared f p) → ∃ d i v w, s.get k = some (.strong d i) ∧ s.h.sk.lab d = ⟨f, p⟩ ∧
      s.h.sk.node d = some (.data v) ∧ s.h.sk.node i = some (.img w) ∧ s.h.sk.lab d = s.h.sk.lab i := by
    intro k hk
    rcases R.at_ k with ⟨_, e⟩ | ⟨x, y, e1, e2, hr⟩
    · rw [hk] at e; cases e
    · rw [hk] at e2; cases e2
      cases hr with
      | shared d i _ _ hl =>
        obtain ⟨v, w, h1, h2, h3⟩ := I.strong_live (d := d) (i := i) (R.tok_mem e1)
        exact ⟨d, i, v, w, e1, hl, h1, h2, h3⟩
  refine ⟨fun b i => by rw [R.sees_of hk, R.sees_of hk'], ?_⟩
  obtain ⟨d, i, v, w, a1, a2, a3, a4, a5⟩ := get k hk
  obtain ⟨d', i', v', w', b1, b2, b3, b4, b5⟩ := get k' hk'
  have e1 := I.good.shape.dataUniq _ _ _ _ a3 b3 (a2.trans b2.symm)
  have e2 := I.good.shape.imgUniq _ _ _ _ a4 b4 (by rw [← a5, ← b5, a2, b2])
  subst e1 e2
  exact ⟨_, a1, b1⟩

/-- Take halves, one after the other, beginning with handle `k`: the calls, when the next free
position is `n`. -/
def descend (k n : Nat) : List Side → List (Op α)
  | [] => []
  | s :: l => .cloneSide s k :: descend n (n + 1) l

/-- Where the last handle of `descend` is. -/
def descended (k n : Nat) : List Side → Nat
  | [] => k
  | _ :: l => descended n (n + 1) l

/-- The member of the family that halving leads to. Halving an empty slice, and the right half
of a slice of one item, do not lead to a new member. -/
def stepped (r : Rng) (p : List Side) : List Side → List Side
  | [] => p
  | .L :: l => stepped r (if (r.at p).len = 0 then p else .L :: p) l
  | .R :: l => stepped r (if (r.at p).len ≤ 1 then p else .R :: p) l

theorem stepped_cons (w : World α) (f : Nat) (p : List Side) (s : Side) (l : List Side) :
    stepped (w.fam f).rng p (s :: l) = stepped (w.fam f).rng (w.halfPath f p s) l := by
  cases s <;> rfl

theorem descend_get (l : List Side) : ∀ {ops : List (Op α)} {k f : Nat} {p : List Side}, (World.after umax zst ops).get k = some (.shared f p) →
    (World.after umax zst (ops ++ descend k (World.after umax zst ops).hs.length l)).get (descended k (World.after umax zst ops).hs.length l) =
      some (.shared f (stepped ((World.after umax zst ops).fam f).rng p l)) := by
  induction l with
  | nil => intro ops k f p hk; simp only [descend, List.append_nil]; exact hk
  | cons s l ih =>
    intro ops k f p hk
    have ea : World.after umax zst (ops ++ [.cloneSide s k]) =
        ((World.after umax zst ops).push (.shared f ((World.after umax zst ops).halfPath f p s))).settle := by
      rw [World.after_snoc]; simp only [World.call, World.act, hk]
    have hg : (World.after umax zst (ops ++ [.cloneSide s k])).get (World.after umax zst ops).hs.length =
        some (.shared f ((World.after umax zst ops).halfPath f p s)) := by
      rw [ea]; exact World.get_push_self
    have hlen : (World.after umax zst (ops ++ [.cloneSide s k])).hs.length = (World.after umax zst ops).hs.length + 1 := by
      rw [ea]; simp [World.settle, World.push]
    have hfam : (World.after umax zst (ops ++ [.cloneSide s k])).fam f = (World.after umax zst ops).fam f := by rw [ea]; rfl
    have := ih hg
    rw [hlen, hfam, List.append_assoc] at this
    simp only [descend, descended, stepped_cons]
    exact this

/-- C28: the same steps from two handles on the same member, taken at different times, lead to
handles on the same memory: the first handle so obtained, if it still exists (`Unused`), shows
what the second one shows, whatever was called in between. -/
theorem C28_same_steps {k1 k2 f : Nat} {p l : List Side} {more : List (Op α)}
    (hk1 : (World.after umax zst ops).get k1 = some (.shared f p))
    (hu : Unused (descended k1 (World.after umax zst ops).hs.length l) more)
    (hk2 : (World.after umax zst (ops ++ descend k1 (World.after umax zst ops).hs.length l ++ more)).get k2 = some (.shared f p))
    (hu2 : Unused (descended k1 (World.after umax zst ops).hs.length l)
      (descend (α := α) k2 (World.after umax zst (ops ++ descend k1 (World.after umax zst ops).hs.length l ++ more)).hs.length l))
    (h : after umax zst (ops ++ descend k1 (World.after umax zst ops).hs.length l ++ more ++
      descend k2 (World.after umax zst (ops ++ descend k1 (World.after umax zst ops).hs.length l ++ more)).hs.length l) = .ok s) (b i : Nat) :
    s.Sees umax (descended k1 (World.after umax zst ops).hs.length l) b i ↔
      s.Sees umax (descended k2 (World.after umax zst (ops ++ descend k1 (World.after umax zst ops).hs.length l ++ more)).hs.length l) b i := by
  have d1 := descend_get l hk1
  have d2 := descend_get l hk2
  have d3 := World.run_get umax _ (World.run_get umax more d1 hu) hu2
  rw [← World.after_append, ← World.after_append] at d3
  have hf : (World.after umax zst (ops ++ descend k1 (World.after umax zst ops).hs.length l ++ more)).fam f = (World.after umax zst ops).fam f := by
    obtain ⟨l', hl'⟩ := World.run_fams umax (descend k1 (World.after umax zst ops).hs.length l ++ more) (World.after umax zst ops)
    rw [← World.after_append, ← List.append_assoc] at hl'
    exact World.fam_append hl' ((after_wf umax zst ops).fam (.inl hk1))
  rw [hf] at d2
  exact (C28_same_member h d3 d2).1 b i

/-- C28: `RcSlice`s that show a common item are members of the same family, one of which was
cut from the other. So handles into different halves never overlap. -/
theorem C28_overlap {k k' b i f f' : Nat} {p p' : List Side} (h : after umax zst ops = .ok s)
    (hk : (World.after umax zst ops).get k = some (.shared f p)) (hk' : (World.after umax zst ops).get k' = some (.shared f' p'))
    (h1 : s.Sees umax k b i) (h2 : s.Sees umax k' b i) : f = f' ∧ Related p p' := by
  by_cases e : k = k'
  · subst e; rw [hk] at hk'; cases hk'; exact ⟨rfl, .inl (List.suffix_refl _)⟩
  · have R := Rel.of_after h
    obtain ⟨_, _, _, z1, z2, z3⟩ := R.wf.disj hk hk' e ((R.sees_of hk).1 h1) ((R.sees_of hk').1 h2)
    cases z1; cases z2; exact ⟨rfl, z3⟩

theorem halves_unrelated {p x y : List Side} {s t : Side} (hst : s ≠ t) : ¬ Related (x ++ s :: p) (y ++ t :: p) := by
  have aux : ∀ {x y : List Side} {s t : Side}, s ≠ t → ¬ (x ++ s :: p) <:+ (y ++ t :: p) := by
    intro x y s t hst h
    have h1 : (s :: p) <:+ (y ++ t :: p) := (List.suffix_append _ _).trans h
    have h2 : (t :: p) <:+ (y ++ t :: p) := List.suffix_append _ _
    have := (List.suffix_of_suffix_length_le h1 h2 (by simp)).eq_of_length (by simp)
    exact hst (by cases this; rfl)
  rintro (h | h)
  · exact aux hst h
  · exact aux (Ne.symm hst) h

/-- C28: handles into different halves of a slice show no common item. -/
theorem C28_halves_disjoint {k k' b i f : Nat} {p x y : List Side} {sd t : Side} (hst : sd ≠ t) (h : after umax zst ops = .ok s)
    (hk : (World.after umax zst ops).get k = some (.shared f (x ++ sd :: p)))
    (hk' : (World.after umax zst ops).get k' = some (.shared f (y ++ t :: p))) (h1 : s.Sees umax k b i) : ¬ s.Sees umax k' b i :=
  fun h2 => halves_unrelated hst (C28_overlap h hk hk' h1 h2).2

example : (World.after 100 false [.rcNew [1, 2, 3, 4, 5], .clone 0]).get 0 = some (.shared 0 []) ∧
    descend (α := Nat) 0 2 [.R, .L] = [.cloneSide .R 0, .cloneSide .L 2] ∧ descended 0 2 [.R, .L] = 3 ∧
    answer 100 false [.rcNew [1, 2, 3, 4, 5], .clone 0, .cloneSide .R 0, .cloneSide .L 2, .drop 0, .drop 2, .cloneSide .R 1, .cloneSide .L 4] (.read 5)
      = .ok (.items [3]) ∧
    (after 100 false [.rcNew [1, 2, 3, 4, 5], .clone 0, .cloneSide .R 0, .cloneSide .L 2, .drop 0, .drop 2, .cloneSide .R 1, .cloneSide .L 4]).map
      (fun s => s.get 5 == s.get 3) = .ok true := ⟨rfl, rfl, rfl, rfl, rfl⟩

/-! ## Mutability per subslice -/

/-- C29: a handle inside one half is not hindered by handles inside the other half, once no
`RcSlice` lies on a common enclosing slice: if every other `RcSlice` of the family is inside the
other half, `into_mut` succeeds; if every `WeakSlice` of the family is so too (or refers to an
enclosing slice), `get_mut` succeeds. -/
theorem C29_other_half {k f : Nat} {p x : List Side} {sd t : Side} (hst : sd ≠ t)
    (hk : (World.after umax zst ops).get k = some (.shared f (x ++ sd :: p)))
    (hs : ∀ k' q, k' ≠ k → (World.after umax zst ops).get k' = some (.shared f q) → ∃ y, q = y ++ t :: p) :
    answer umax zst ops (.intoMut k) = .ok .done ∧
    ((∀ k' q, (World.after umax zst ops).get k' = some (.weak f q) → (∃ y, q = y ++ t :: p) ∨ q.length ≤ p.length) →
      ∀ j a, answer umax zst ops (.getMut k j a) = .ok .done) := by
  have n1 : ¬ (World.after umax zst ops).OtherStrong k f (x ++ sd :: p) := by
    rintro ⟨k', q, h1, h2, h3⟩
    obtain ⟨y, rfl⟩ := hs k' q h1 h2
    exact halves_unrelated hst h3
  refine ⟨(C20_into_mut_iff hk).1.2 n1, fun hw j a => (C18_get_mut_iff hk j a).1.2 ⟨n1, ?_⟩⟩
  rintro ⟨k', q, h2, h3⟩
  rcases hw k' q h2 with ⟨y, rfl⟩ | hle
  · exact halves_unrelated hst (.inl h3)
  · have := h3.length_le; simp at this; omega

theorem Rng.has_half {r : Rng} {s : Side} {i : Nat} (h : (r.half s).has i = true) : r.has i = true := by
  cases s
  all_goals
    simp only [Spec.Rng.half, Spec.Rng.left, Spec.Rng.right, Spec.Rng.has, Bool.and_eq_true] at h ⊢
    have h1 := of_decide_eq_true h.1
    have h2 := of_decide_eq_true h.2
    exact ⟨decide_eq_true (by omega), decide_eq_true (by omega)⟩

theorem Rng.has_at {r : Rng} {p q : List Side} {i : Nat} (h : p <:+ q) (hi : (r.at q).has i = true) : (r.at p).has i = true := by
  obtain ⟨l, rfl⟩ := h
  induction l with
  | nil => exact hi
  | cons s l ih => exact ih (Rng.has_half hi)

/-- C29, in terms of memory: a handle that shows something can be made unique if and only if
no other handle shows any of its items, as long as no handle is empty. -/
theorem C29_disjoint {k f : Nat} {p : List Side} (h : after umax zst ops = .ok s)
    (hk : (World.after umax zst ops).get k = some (.shared f p))
    (hne : ∀ k' q, (World.after umax zst ops).get k' = some (.shared f q) → ∃ b i, s.Sees umax k' b i) :
    answer umax zst ops (.intoMut k) = .ok .done ↔ ∀ k' b i, s.Sees umax k b i → s.Sees umax k' b i → k' = k := by
  have R := Rel.of_after h
  rw [(C20_into_mut_iff hk).1]
  constructor
  · intro n k' b i h1 h2
    by_cases e : k' = k
    · exact e
    · obtain ⟨y, y1, y2⟩ := R.sees_iff.1 h2
      obtain ⟨_, _, q, z1, z2, z3⟩ := R.wf.disj hk y1 (Ne.symm e) ((R.sees_of hk).1 h1) y2
      cases z1; subst z2
      exact absurd ⟨k', q, e, y1, z3⟩ n
  · rintro hd ⟨k', q, h1, h2, h3⟩
    rcases h3 with h3 | h3
    · obtain ⟨b, i, hs⟩ := hne k' q h2
      refine h1 (hd k' b i ?_ hs)
      rw [R.sees_of h2] at hs
      rw [R.sees_of hk]
      simp only [World.covers, World.rangeOf, Bool.and_eq_true] at hs ⊢
      exact ⟨hs.1, Rng.has_at h3 hs.2⟩
    · obtain ⟨b, i, hs⟩ := hne k p hk
      refine h1 (hd k' b i hs ?_)
      rw [R.sees_of hk] at hs
      rw [R.sees_of h2]
      simp only [World.covers, World.rangeOf, Bool.and_eq_true] at hs ⊢
      exact ⟨hs.1, Rng.has_at h3 hs.2⟩

/-- Empty subslices are the exception: one that was cut from a slice blocks mutable access to
it, though it shows none of its items. -/
theorem C29_empty_blocks : answer 100 false [.rcNew [(7 : Nat)], .cloneSide .L 0] (.read 1) = .ok (.items []) ∧
    answer 100 false [.rcNew [(7 : Nat)], .cloneSide .L 0] (.intoMut 0) = .ok .err ∧
    answer 100 false [.rcNew [(7 : Nat)], .cloneSide .L 0] (.getMut 0 0 8) = .ok .none := ⟨rfl, rfl, rfl⟩

example : (World.after 100 false demo3).get 1 = some (.shared 0 ([] ++ .L :: [])) ∧
    (World.after 100 false demo3).get 0 = some (.shared 0 ([] ++ .R :: [])) ∧ (World.after 100 false demo3).get 3 = some (.weak 0 ([] ++ .R :: [])) ∧
    (World.after 100 false demo3).hs.length = 4 ∧ (World.after 100 false demo3).get 2 = none ∧
    answer 100 false demo3 (.intoMut 1) = .ok .done ∧ answer 100 false demo3 (.getMut 1 0 3) = .ok .done := ⟨rfl, rfl, rfl, rfl, rfl, rfl, rfl⟩

end Verif
