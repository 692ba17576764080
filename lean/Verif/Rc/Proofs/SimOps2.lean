import Verif.Rc.Proofs.SimOps
/-!
# Calls on handles
-/

namespace Verif.Rc
open Verif.Spec (Side Slot Family Rng Hand World Op Obs End)
variable {α : Type}

section
variable {umax : Nat} {s : State α} {w : World α} {T : List Tok}

/-! ## Conflicting handles -/

theorem mem_tabToks_strong {hs : List (Option Handle)} {d i : Nat} :
    Tok.strong d i ∈ tabToks umax hs ↔ ∃ j : Nat, hs[j]?.join = some (.strong d i) := by
  rw [mem_tabToks]
  constructor
  · rintro ⟨j, x, h1, h2⟩
    cases x with
    | strong d' i' => cases h2; exact ⟨j, h1⟩
    | parts b a it => simp only [Handle.tok] at h2; split at h2 <;> cases h2
    | _ => cases h2
  · rintro ⟨j, h⟩; exact ⟨j, _, h, rfl⟩

theorem mem_tabToks_weak {hs : List (Option Handle)} {d : Option Nat} {g : Nat} :
    Tok.weak d g ∈ tabToks umax hs ↔ ∃ j : Nat, hs[j]?.join = some (.weak d g) := by
  rw [mem_tabToks]
  constructor
  · rintro ⟨j, x, h1, h2⟩
    cases x with
    | weak d' i' => cases h2; exact ⟨j, h1⟩
    | parts b a it => simp only [Handle.tok] at h2; split at h2 <;> cases h2
    | _ => cases h2
  · rintro ⟨j, h⟩; exact ⟨j, _, h, rfl⟩

theorem above_iff {f f' : Nat} {p q : List Side} : (f' == f && World.above p q) = true ↔ (Lab.mk f p).up ⟨f', q⟩ := by
  simp only [Bool.and_eq_true, beq_iff_eq, World.above, List.isSuffixOf_iff_suffix, Lab.up]
  constructor
  · rintro ⟨h1, h2⟩; exact ⟨h1.symm, h2⟩
  · rintro ⟨h1, h2⟩; exact ⟨h1.symm, h2⟩

theorem above_iff' {f f' : Nat} {p q : List Side} : (f' == f && World.above p q) = true ↔ (Lab.mk f' p).up ⟨f, q⟩ := by
  simp only [Bool.and_eq_true, beq_iff_eq, World.above, List.isSuffixOf_iff_suffix, Lab.up]

theorem sharedConflict_iff (R : Rel umax s w T) (k f : Nat) (p : List Side) :
    StrongConf s.h.sk ⟨f, p⟩ (tabToks umax (s.hs.set k none)) ↔ w.otherHand k (World.sharedConflict f p) = true := by
  unfold World.otherHand World.anyHand
  rw [show (w.del k).hs = w.hs.set k none from rfl, ← (R.tab.del k).any
    (Q := fun x => ∃ d i, x = .strong d i ∧ ((Lab.mk f p).up (s.h.sk.lab d) ∨ (s.h.sk.lab d).up ⟨f, p⟩))]
  · constructor
    · rintro ⟨d, i, h1, h2⟩
      obtain ⟨j, hj⟩ := mem_tabToks_strong.1 h1
      exact ⟨j, _, hj, d, i, rfl, h2⟩
    · rintro ⟨j, x, hj, d, i, rfl, h2⟩
      exact ⟨d, i, mem_tabToks_strong.2 ⟨j, hj⟩, h2⟩
  · intro j x y _ hr
    cases hr with
    | shared d i f' p' hl =>
      simp only [World.sharedConflict, Bool.and_or_distrib_left, Bool.or_eq_true]
      rw [above_iff, above_iff', ← hl]
      constructor
      · rintro ⟨d', i', e, h⟩; cases e; exact h
      · intro h; exact ⟨d, i, rfl, h⟩
    | _ => simp [World.sharedConflict]

theorem weakConflict_iff (R : Rel umax s w T) (k f : Nat) (p : List Side) :
    WeakConf s.h.sk ⟨f, p⟩ (tabToks umax (s.hs.set k none)) ↔ w.otherHand k (World.weakConflict f p) = true := by
  unfold World.otherHand World.anyHand
  rw [show (w.del k).hs = w.hs.set k none from rfl, ← (R.tab.del k).any
    (Q := fun x => ∃ d g, x = .weak (some d) g ∧ (Lab.mk f p).up (s.h.sk.lab d))]
  · constructor
    · rintro ⟨d, i, h1, h2⟩
      obtain ⟨j, hj⟩ := mem_tabToks_weak.1 h1
      exact ⟨j, _, hj, d, i, rfl, h2⟩
    · rintro ⟨j, x, hj, d, i, rfl, h2⟩
      exact ⟨d, i, mem_tabToks_weak.2 ⟨j, hj⟩, h2⟩
  · intro j x y _ hr
    cases hr with
    | weak d g f' p' hl =>
      simp only [World.weakConflict]
      rw [above_iff, ← hl]
      constructor
      · rintro ⟨d', i', e, h⟩; cases e; exact h
      · intro h; exact ⟨d, g, rfl, h⟩
    | _ => simp [World.weakConflict]

theorem sharedAbove_iff (R : Rel umax s w T) (f : Nat) (p : List Side) :
    (∃ d i, Tok.strong d i ∈ tabToks umax s.hs ∧ (s.h.sk.lab d).up ⟨f, p⟩) ↔ w.anyHand (World.sharedAbove f p) = true := by
  unfold World.anyHand
  rw [← R.tab.any (Q := fun x => ∃ d i, x = .strong d i ∧ (s.h.sk.lab d).up ⟨f, p⟩)]
  · constructor
    · rintro ⟨d, i, h1, h2⟩
      obtain ⟨j, hj⟩ := mem_tabToks_strong.1 h1
      exact ⟨j, _, hj, d, i, rfl, h2⟩
    · rintro ⟨j, x, hj, d, i, rfl, h2⟩
      exact ⟨d, i, mem_tabToks_strong.2 ⟨j, hj⟩, h2⟩
  · intro j x y _ hr
    cases hr with
    | shared d i f' p' hl =>
      simp only [World.sharedAbove]
      rw [above_iff', ← hl]
      constructor
      · rintro ⟨d', i', e, h⟩; cases e; exact h
      · intro h; exact ⟨d, i, rfl, h⟩
    | _ => simp [World.sharedAbove]

theorem StrongConf.left {k : Skel} {l : Lab} {T1 T2 : List Tok} (h : StrongConf k l T1) : StrongConf k l (T1 ++ T2) := by
  obtain ⟨d, i, h1, h2⟩ := h; exact ⟨d, i, List.mem_append_left _ h1, h2⟩

theorem WeakConf.left {k : Skel} {l : Lab} {T1 T2 : List Tok} (h : WeakConf k l T1) : WeakConf k l (T1 ++ T2) := by
  obtain ⟨d, i, h1, h2⟩ := h; exact ⟨d, i, List.mem_append_left _ h1, h2⟩

theorem quiet_split {t : Tok} (ht : ∀ x, t ≠ .loose x) (hs : List (Option Handle)) : Quiet (t :: (tabToks umax hs ++ [])) := by
  intro x hx
  rcases List.mem_cons.1 hx with e | hx
  · exact ht x e.symm
  · rw [List.append_nil] at hx; exact tabToks_quiet _ _ x hx

/-! ## Exclusive access -/

theorem sim_getMut (R : Rel umax s w T) (k j : Nat) (a : α) : Sim umax s w T (.getMut k j a) := by
  rcases R.at_ k with ⟨e1, e2⟩ | ⟨x, y, e1, e2, hr⟩
  · exact .inv R (by simp only [exec, e1]) (by simp only [World.act, e2])
  · cases hr with
    | shared d i f p hl =>
      have I0 := R.split e1
      have hm : Tok.strong d i ∈ (Tok.strong d i :: (tabToks umax (s.hs.set k none) ++ T)) := List.mem_cons_self ..
      obtain ⟨v, vi, hd, hi, _⟩ := I0.strong_live hm
      have hg := getMutOk_ok I0 hm hi
      obtain ⟨r1, r2, r3, r4⟩ := R.data_rng hd hl
      by_cases hc : s.h.strong d = 1 ∧ s.h.strong vi.gmg = 1
      · obtain ⟨n1, n2⟩ := I0.no_conf hi hc.1 hc.2
        have hb : (s.h.strong d == 1 && s.h.strong vi.gmg == 1) = true := by simp [hc]
        rw [hb] at hg
        have m1 : w.otherHand k (World.sharedConflict f p) = false := by
          rw [Bool.eq_false_iff]; intro h
          exact n1 (by rw [hl]; exact ((sharedConflict_iff R k f p).2 h).left)
        have m2 : w.otherHand k (World.weakConflict f p) = false := by
          rw [Bool.eq_false_iff]; intro h
          exact n2 (by rw [hl]; exact ((weakConflict_iff R k f p).2 h).left)
        by_cases hj : j < v.len
        · obtain ⟨a0, ha0⟩ := R.inv.good.data_items hd (j := v.off + j) (by omega) (by omega)
          have hw := writeItem_ok (a' := a) (R.inv.good.data_accessible hd (by omega)) ha0
          refine .of0 (s' := { s with h := s.h.setSlot v.buf (v.off + j) (.live a) }) (o := .done)
            (w' := w.store v.buf (v.off + j) (.live a)) ?_ ?_ ?_
          · simp only [exec, e1, hg, getData_ok hd, bind, Except.bind, if_true]
            rw [if_pos hj, hw]; rfl
          · simp only [World.act, e2, m1, m2, r1, r2, Bool.or_self, Bool.false_eq_true, if_false]; rw [if_pos hj]
          · exact R.keep (R.inv.write ha0) (.refl _) (R.core.store _ _ _) rfl
        · refine .of0 (s' := s) (o := .done) (w' := w) ?_ ?_ R
          · simp only [exec, e1, hg, getData_ok hd, bind, Except.bind, if_true]
            rw [if_neg hj]; rfl
          · simp only [World.act, e2, m1, m2, r2, Bool.or_self, Bool.false_eq_true, if_false]; rw [if_neg hj]
      · have hb : (s.h.strong d == 1 && s.h.strong vi.gmg == 1) = false := by
          rw [Bool.eq_false_iff]; intro h
          simp only [Bool.and_eq_true, beq_iff_eq] at h; exact hc h
        rw [hb] at hg
        refine ⟨s, .none, [], w, ?_, R, .inr ⟨⟨f, p, e2⟩, rfl⟩, ?_⟩
        · simp only [exec, e1, hg, bind, Except.bind]; rfl
        · rintro rfl
          have hq := quiet_split (umax := umax) (t := .strong d i) (fun _ h => by cases h) (s.hs.set k none)
          have : StrongConf s.h.sk (s.h.sk.lab d) (tabToks umax (s.hs.set k none) ++ []) ∨
              WeakConf s.h.sk (s.h.sk.lab d) (tabToks umax (s.hs.set k none) ++ []) := by
            by_cases c1 : s.h.strong d = 1
            · exact I0.conf_of_gmg hq hi fun c2 => hc ⟨c1, c2⟩
            · exact .inl (I0.conf_of_data hq c1)
          rw [List.append_nil, hl, sharedConflict_iff R, weakConflict_iff R, ← Bool.or_eq_true] at this
          simp only [World.act, e2]; rw [if_pos this]
    | _ => exact .inv R (by simp only [exec, e1]) (by simp only [World.act, e2])

theorem sim_intoMut (R : Rel umax s w T) (k : Nat) : Sim umax s w T (.intoMut k) := by
  rcases R.at_ k with ⟨e1, e2⟩ | ⟨x, y, e1, e2, hr⟩
  · exact .inv R (by simp only [exec, e1]) (by simp only [World.act, e2])
  · cases hr with
    | shared d i f p hl =>
      have I0 := R.split e1
      have hm : Tok.strong d i ∈ (Tok.strong d i :: (tabToks umax (s.hs.set k none) ++ T)) := List.mem_cons_self ..
      obtain ⟨v, vi, hd, hi, _⟩ := I0.strong_live hm
      obtain ⟨r1, r2, r3, r4⟩ := R.data_rng hd hl
      rcases intoMut_ok I0 hd with ⟨e, hc⟩ | ⟨c1, c2, h', e, I', p'⟩
      · refine ⟨s, .err, [], w, ?_, R, .inr ⟨⟨f, p, e2⟩, rfl⟩, ?_⟩
        · simp only [exec, e1, e, bind, Except.bind]; rfl
        · rintro rfl
          have hq := quiet_split (umax := umax) (t := .strong d i) (fun _ h => by cases h) (s.hs.set k none)
          have : StrongConf s.h.sk (s.h.sk.lab d) (tabToks umax (s.hs.set k none) ++ []) := by
            by_cases c1 : s.h.strong d = 1
            · exact I0.conf_of_img hq fun c2 => hc ⟨c1, c2⟩
            · exact I0.conf_of_data hq c1
          rw [List.append_nil, hl, sharedConflict_iff R] at this
          simp only [World.act, e2]; rw [if_pos this]
      · have m1 : w.otherHand k (World.sharedConflict f p) = false := by
          rw [Bool.eq_false_iff]; intro h
          exact I0.no_strong_conf c1 c2 (by rw [hl]; exact ((sharedConflict_iff R k f p).2 h).left)
        refine .of (s' := { s with h := h' }.put k (.uniq ⟨v.buf, v.off, v.len, v.alloc⟩)) (o := .done) (ts := [.dropS i])
          (w' := w.put k (.uniq v.buf ⟨v.off, v.len⟩ v.alloc.isSome)) ?_ ?_ ?_
        · simp only [exec, e1, e, bind, Except.bind]; rfl
        · simp only [World.act, e2, m1, r1, r2, r3, Bool.false_eq_true, if_false]
        · refine R.put e1 ?_ p'.grow (R.core.pruned p') rfl (.uniq ⟨v.buf, v.off, v.len, v.alloc⟩ (r4.grow p'.grow))
          exact I'.perm ((List.perm_middle (a := Tok.loose i) (l₁ := tabToks umax (s.hs.set k none)) (l₂ := T)).symm.cons _)
    | _ => exact .inv R (by simp only [exec, e1]) (by simp only [World.act, e2])

theorem sim_upgrade (R : Rel umax s w T) (k : Nat) : Sim umax s w T (.upgrade k) := by
  rcases R.at_ k with ⟨e1, e2⟩ | ⟨x, y, e1, e2, hr⟩
  · exact .inv R (by simp only [exec, e1]) (by simp only [World.act, e2])
  · have hm := R.tok_mem e1
    cases hr with
    | weak d g f p hl =>
      rcases upgradeWeak_ok R.inv hm with ⟨e, hn⟩ | ⟨h', x, v, j, ex, hx, e, I', x'⟩
      · have hn' := hn d rfl
        have m : w.anyHand (World.sharedAbove f p) = false := by
          rw [Bool.eq_false_iff]; intro h
          obtain ⟨d', i', h1, h2⟩ := (sharedAbove_iff R f p).2 h
          obtain ⟨v', _, hd', _, _⟩ := R.inv.strong_live (List.mem_append_left T h1)
          obtain ⟨v, hv⟩ := ((R.inv.toks _ hm).2.2 d rfl).2.2.2 d' v' hd' (by rw [hl]; exact h2)
          rw [hn'] at hv; cases hv
        refine .of0 (s' := s) (o := .none) (w' := w) ?_ ?_ R
        · simp only [exec, e1, e, bind, Except.bind]; rfl
        · simp only [World.act, e2, m, Bool.false_eq_true, if_false]
      · cases ex
        obtain ⟨r1, r2, r3, r4⟩ := R.data_rng hx hl
        have hlt := R.inv.good.ledger.lt hx
        refine ⟨{ s with h := h' }.push (.strong d j), .handle, [], w.push (.shared f p), ?_,
          R.push I' x'.toGrow (R.core.same x') rfl (.shared d j f p (by rw [x'.lab d hlt]; exact hl)), ?_, ?_⟩
        · simp only [exec, e1, e, bind, Except.bind]; rfl
        · refine .inr ⟨f, p, e2, rfl, fun i hi => ?_⟩
          rw [r2] at hi
          simp only [Rng.has, Bool.and_eq_true, decide_eq_true_eq] at hi
          rw [r1, R.core.items]
          exact R.inv.good.data_items hx hi.1 hi.2
        · rintro rfl
          have m : w.anyHand (World.sharedAbove f p) = true := by
            rw [← sharedAbove_iff R f p]
            rcases R.inv.data_held d hx with ⟨d', i', h1, h2⟩ | ⟨y, _, h1, _⟩
            · rw [List.append_nil] at h1
              exact ⟨d', i', h1, by rw [← hl]; exact h2⟩
            · rw [List.append_nil] at h1
              exact absurd h1 (tabToks_quiet _ _ y)
          simp only [World.act, e2, m, if_true]
    | weakNone g =>
      rcases upgradeWeak_ok R.inv hm with ⟨e, hn⟩ | ⟨h', x, v, j, ex, _⟩
      · refine .of0 (s' := s) (o := .none) (w' := w) ?_ ?_ R
        · simp only [exec, e1, e, bind, Except.bind]; rfl
        · simp only [World.act, e2]
      · cases ex
    | _ => exact .inv R (by simp only [exec, e1]) (by simp only [World.act, e2])

end

end Verif.Rc
