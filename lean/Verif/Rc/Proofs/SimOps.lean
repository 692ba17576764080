import Verif.Rc.Proofs.Sim
/-!
# Calls that make handles
-/

namespace Verif.Rc
open Verif.Spec (Side Slot Family Rng Hand World Op Obs End)
variable {α : Type}

section
variable {umax : Nat} {s : State α} {w : World α} {T : List Tok}

theorem perm_swap3 {a b c : Tok} (l : List Tok) : (a :: b :: c :: l).Perm (b :: c :: a :: l) :=
  (List.Perm.swap ..).trans ((List.Perm.swap ..).cons _)

theorem boxSlot_eq (xs : List α) : (fun i => match xs[i]? with | some a => Slot.live a | none => .absent) = boxSlot xs := rfl

/-- A new unique slice. -/
theorem mutFromBox_ok (R : Rel umax s w T) {xs : List α} (hl : xs.length ≤ umax) :
    Rel umax ({ s with h := (mutFromBox s.h xs).1 }.push (.uniq (mutFromBox s.h xs).2))
      ((w.newBuf xs).push (.uniq w.nbuf ⟨0, xs.length⟩ (!w.zst && !xs.isEmpty))) T := by
  by_cases hz : xs.length = 0 ∨ s.h.sk.zst = true
  · obtain ⟨I, x⟩ := boxPlain_ok R.inv xs hz
    have e : mutFromBox s.h xs = ((newBuf s.h xs).1, ⟨s.h.sk.nbuf, 0, xs.length, none⟩) := by
      simp only [mutFromBox]; exact if_pos hz
    rw [e]
    have hc : Core umax (newBuf s.h xs).1 (w.newBuf xs) :=
      R.core.newBuf x.toGrow hl rfl rfl rfl rfl (upd_same _ _ _)
    refine R.push I x.toGrow hc rfl ?_
    have hh : (!w.zst && !xs.isEmpty) = false := by
      rcases hz with hz | hz
      · rw [List.length_eq_zero_iff] at hz; subst hz; simp
      · simp [R.core.zst, hz]
    rw [hh, R.core.nbuf]
    refine .uniq ⟨s.h.sk.nbuf, 0, xs.length, none⟩ (.inl ⟨Nat.lt_succ_self _, ?_⟩)
    show 0 + xs.length ≤ upd _ _ _ _
    rw [upd_same]; omega
  · have h1 : xs.length ≠ 0 := fun h => hz (.inl h)
    have h2 : ¬ s.h.sk.zst = true := fun h => hz (.inr h)
    obtain ⟨I, x⟩ := boxAlloc_ok R.inv xs h1
    have e : mutFromBox s.h xs = (((newBuf s.h xs).1.rcNew (.alloc s.h.sk.nbuf) ⟨0, []⟩).1, ⟨s.h.sk.nbuf, 0, xs.length, some s.h.sk.next⟩) := by
      simp only [mutFromBox]; exact if_neg hz
    rw [e]
    have hc : Core umax ((newBuf s.h xs).1.rcNew (.alloc s.h.sk.nbuf) ⟨0, []⟩).1 (w.newBuf xs) :=
      R.core.newBuf x.toGrow hl rfl rfl rfl rfl (upd_same _ _ _)
    refine R.push I x.toGrow hc rfl ?_
    have hh : (!w.zst && !xs.isEmpty) = true := by
      rw [R.core.zst]
      have : xs.isEmpty = false := by cases xs <;> simp_all
      simp [this, h2]
    rw [hh, R.core.nbuf]
    refine .uniq ⟨s.h.sk.nbuf, 0, xs.length, some s.h.sk.next⟩ (.inl ⟨Nat.lt_succ_self _, ?_⟩)
    show 0 + xs.length ≤ upd _ _ _ _
    rw [upd_same]; omega

theorem sim_mutNew (R : Rel umax s w T) (xs : List α) : Sim umax s w T (.mutNew xs) := by
  by_cases hl : xs.length ≤ umax
  · exact .of0 (by simp only [exec]; rw [if_pos hl]) (by simp only [World.act]; rw [if_pos hl]) (mutFromBox_ok R hl)
  · exact .inv R (by simp only [exec]; rw [if_neg hl]) (by simp only [World.act]; rw [if_neg hl])

/-- A new family. -/
theorem newShared (R : Rel umax s w T) {h1 : Heap α} {w1 : World α} {r : Reg} (I : Inv h1 (.reg r :: (tabToks umax s.hs ++ T)))
    (x : Grow s.h.sk h1.sk) (c : Core umax h1 w1) (hin : RngIn h1.sk r.buf ⟨r.off, r.len⟩) (e : w1.hs = w.hs) :
    ∃ h' d i, rcFromParts h1 r = .ok (h', d, i) ∧ Rel umax ({ s with h := h' }.push (.strong d i))
      ((w1.newFam ⟨r.buf, ⟨r.off, r.len⟩, r.alloc.isSome⟩).push (.shared w1.fams.length [])) T := by
  obtain ⟨h', d, i, e1, I', x', es, em, eb, ef, eF, el⟩ := intoImmut_ok I
  refine ⟨h', d, i, e1, R.push I' (x.trans x'.toGrow) (c.newFam x'.toGrow eb ef eF hin em es) e ?_⟩
  exact .shared d i _ _ (by rw [el, c.nfam])

theorem sim_rcNew (R : Rel umax s w T) (xs : List α) : Sim umax s w T (.rcNew xs) := by
  by_cases hl : xs.length ≤ umax
  · by_cases hz : xs.length = 0
    · obtain ⟨I, x⟩ := boxPlain_ok R.inv xs (.inl hz)
      have hc : Core umax (newBuf s.h xs).1 (w.newBuf xs) :=
        R.core.newBuf x.toGrow hl rfl rfl rfl rfl (upd_same _ _ _)
      obtain ⟨h', d, i, e1, R'⟩ := newShared R I x.toGrow hc (.inr (by simp only; omega)) rfl
      refine .of0 (o := .handle) ?_ ?_ R'
      · simp only [exec]; rw [if_pos hl]
        have : rcFromBox s.h xs = .ok (h', d, i) := by
          simp only [rcFromBox]; rw [if_pos hz]; rw [hz] at e1; exact e1
        rw [this]; rfl
      · simp only [World.act]; rw [if_pos hl]
        rw [List.length_eq_zero_iff] at hz; subst hz
        rw [R.core.nbuf]; rfl
    · obtain ⟨I, x⟩ := boxAlloc_ok R.inv xs hz
      have hc : Core umax ((newBuf s.h xs).1.rcNew (.alloc s.h.sk.nbuf) ⟨0, []⟩).1 (w.newBuf xs) :=
        R.core.newBuf x.toGrow hl rfl rfl rfl rfl (upd_same _ _ _)
      obtain ⟨h', d, i, e1, R'⟩ := newShared R I x.toGrow hc (.inl ⟨Nat.lt_succ_self _, by
        show 0 + xs.length ≤ upd _ _ _ _
        rw [upd_same]; omega⟩) rfl
      refine .of0 (o := .handle) ?_ ?_ R'
      · simp only [exec]; rw [if_pos hl]
        have : rcFromBox s.h xs = .ok (h', d, i) := by
          simp only [rcFromBox]; rw [if_neg hz]; exact e1
        rw [this]; rfl
      · simp only [World.act]; rw [if_pos hl]
        have : xs.isEmpty = false := by cases xs <;> simp_all
        rw [R.core.nbuf, this]; rfl
  · exact .inv R (by simp only [exec]; rw [if_neg hl]) (by simp only [World.act]; rw [if_neg hl])

theorem sim_weakNew (R : Rel umax s w T) : Sim umax s w T .weakNew := by
  have I := weakNew_inv R.inv
  obtain ⟨_, x, es, em, eb, _⟩ := weakNew_ok R.inv.good
  refine .of0 rfl rfl (R.push I x.toGrow (R.core.newFam x.toGrow eb rfl (upd_same _ _ _) (.inr rfl) em es) rfl ?_)
  exact .weakNone _

/-! ## Ranges of unique slices and iterators -/

theorem look_eq (c : Core umax s.h w) (b : Nat) (r : Rng) : w.look b r = lookAt (s.h.slot b) r.off r.len := by
  simp only [World.look, lookAt, Rng.items, c.items]; rfl

theorem read_reg (R : Rel umax s w T) {k : Nat} {x : Handle} {r : Reg} (hk : s.get k = some x) (ht : x.tok umax = .reg r) :
    readRange s.h r.buf r.off r.len = .ok (w.look r.buf ⟨r.off, r.len⟩) ∧ (w.look r.buf ⟨r.off, r.len⟩).length = r.len := by
  rw [look_eq R.core]
  have hm := R.tok_mem hk
  rw [ht] at hm
  exact readRange_ok (fun h => R.inv.reg_accessible hm h) (fun j h1 h2 => R.inv.reg_live hm h1 h2)

theorem sim_clone (R : Rel umax s w T) (k : Nat) : Sim umax s w T (.clone k) := by
  rcases R.at_ k with ⟨e1, e2⟩ | ⟨x, y, e1, e2, hr⟩
  · exact .inv R (by simp only [exec, e1]) (by simp only [World.act, e2])
  · have hm := R.tok_mem e1
    cases hr with
    | shared d i f p hl =>
      obtain ⟨h', e, I, ek, es⟩ := rcClone_ok R.inv hm
      refine .of0 (s' := { s with h := h' }.push (.strong d i)) ?_ (by simp only [World.act, e2]; rfl)
        (R.push I (ek ▸ .refl _) (R.core.same (.of_eq ek es)) rfl (.shared d i f p (by rw [ek]; exact hl)))
      simp only [exec, e1, e]; rfl
    | weak d g f p hl =>
      obtain ⟨h', e, I, ek, es⟩ := weakClone_ok R.inv hm
      refine .of0 (s' := { s with h := h' }.push (.weak (some d) g)) ?_ (by simp only [World.act, e2]; rfl)
        (R.push I (ek ▸ .refl _) (R.core.same (.of_eq ek es)) rfl (.weak d g f p (by rw [ek]; exact hl)))
      simp only [exec, e1, e]; rfl
    | weakNone g =>
      obtain ⟨h', e, I, ek, es⟩ := weakClone_ok R.inv hm
      refine .of0 (s' := { s with h := h' }.push (.weak none g)) ?_ (by simp only [World.act, e2]; rfl)
        (R.push I (ek ▸ .refl _) (R.core.same (.of_eq ek es)) rfl (.weakNone g))
      simp only [exec, e1, e]; rfl
    | uniq r hin =>
      obtain ⟨e, hlen⟩ := read_reg R e1 rfl
      have hle := (R.core.rng_le hin).2
      simp only at hle
      refine .of0 (o := .handle) ?_ ?_ (mutFromBox_ok R (xs := w.look r.buf ⟨r.off, r.len⟩) (by omega))
      · simp only [exec, e1, e]; rfl
      · simp only [World.act, e2, hlen]
    | iter r hin => exact .inv R (by simp only [exec, e1]) (by simp only [World.act, e2])
    | parts b a m f c r h1 h2 h3 => exact .inv R (by simp only [exec, e1]) (by simp only [World.act, e2])

theorem halfOf_eq (R : Rel umax s w T) {d : Nat} {v : DataV} {f : Nat} {p : List Side} (hd : s.h.sk.node d = some (.data v))
    (hl : s.h.sk.lab d = ⟨f, p⟩) (sd : Side) : (s.h.sk.lab d).halfOf v.len sd = ⟨f, w.halfPath f p sd⟩ := by
  obtain ⟨_, h2, _, _⟩ := R.data_rng hd hl
  rw [hl]
  cases sd with
  | L =>
    simp only [Lab.halfOf, World.halfPath, h2, sameNode, beq_iff_eq, Lab.child]
    split <;> rfl
  | R =>
    simp only [Lab.halfOf, World.halfPath, h2, sameNode, decide_eq_true_eq, Lab.child]
    split <;> rfl

theorem sim_cloneSide (R : Rel umax s w T) (sd : Side) (k : Nat) : Sim umax s w T (.cloneSide sd k) := by
  rcases R.at_ k with ⟨e1, e2⟩ | ⟨x, y, e1, e2, hr⟩
  · exact .inv R (by simp only [exec, e1]) (by simp only [World.act, e2])
  · have hm := R.tok_mem e1
    cases hr with
    | shared d i f p hl =>
      obtain ⟨v, _, hd, _, _⟩ := R.inv.strong_live hm
      obtain ⟨h', c, j, e, I, x, el⟩ := rcCloneSide_ok R.inv hm hd sd
      refine .of0 (s' := { s with h := h' }.push (.strong c j)) ?_ (by simp only [World.act, e2]; rfl)
        (R.push I x.toGrow (R.core.same x) rfl (.shared c j _ _ (el.trans (halfOf_eq R hd hl sd))))
      simp only [exec, e1, e]; rfl
    | _ => exact .inv R (by simp only [exec, e1]) (by simp only [World.act, e2])

theorem sim_splitOff (R : Rel umax s w T) (sd : Side) (k : Nat) : Sim umax s w T (.splitOff sd k) := by
  rcases R.at_ k with ⟨e1, e2⟩ | ⟨x, y, e1, e2, hr⟩
  · exact .inv R (by simp only [exec, e1]) (by simp only [World.act, e2])
  · cases hr with
    | shared d i f p hl =>
      have I0 := R.split e1
      have hm : Tok.strong d i ∈ (Tok.strong d i :: (tabToks umax (s.hs.set k none) ++ T)) := List.mem_cons_self ..
      obtain ⟨v, _, hd, _, _⟩ := I0.strong_live hm
      obtain ⟨ha, cl, jl, el1, I1, x1, ll1⟩ := rcCloneSide_ok I0 hm hd .L
      obtain ⟨v1, hd1, _, _, hlen, _⟩ := x1.data d v hd
      obtain ⟨hb, cr, jr, el2, I2, x2, lr⟩ := rcCloneSide_ok I1 (List.mem_cons_of_mem _ hm) hd1 .R
      have B := R.inv.good.shape.toBase
      have x12 := x1.trans B I1.good.shape.toBase x2
      have lr' : hb.sk.lab cr = ⟨f, w.halfPath f p .R⟩ := by
        rw [lr, hlen, x1.lab d (I0.good.ledger.lt hd)]; exact halfOf_eq R hd hl .R
      have ll' : hb.sk.lab cl = ⟨f, w.halfPath f p .L⟩ := by
        rw [x2.lab cl (I1.lt_of_tok (mem_Ss (List.mem_cons_self ..) (by simp [Tok.S]))), ll1]; exact halfOf_eq R hd hl .L
      have hc := R.core.same x12
      cases sd with
      | L =>
        refine .of (s' := ({ s with h := hb }.put k (.strong cr jr)).push (.strong cl jl)) (o := .handle)
          (ts := [.dropRcSlice d i]) ?_ (by simp only [World.act, e2])
          (R.putPush e1 ?_ x12.toGrow hc rfl (.shared cr jr _ _ lr') (.shared cl jl _ _ ll'))
        · simp only [exec, e1, el1, bind, Except.bind, el2]; rfl
        · refine I2.perm ?_
          refine (List.Perm.swap ..).trans ?_
          exact ((List.perm_middle (a := Tok.strong d i) (l₁ := tabToks umax (s.hs.set k none)) (l₂ := T)).symm.cons _).cons _
      | R =>
        refine .of (s' := ({ s with h := hb }.put k (.strong cl jl)).push (.strong cr jr)) (o := .handle)
          (ts := [.dropRcSlice d i]) ?_ (by simp only [World.act, e2])
          (R.putPush e1 ?_ x12.toGrow hc rfl (.shared cl jl _ _ ll') (.shared cr jr _ _ lr'))
        · simp only [exec, e1, el1, bind, Except.bind, el2]; rfl
        · refine I2.perm ?_
          exact ((List.perm_middle (a := Tok.strong d i) (l₁ := tabToks umax (s.hs.set k none)) (l₂ := T)).symm.cons _).cons _
    | uniq r hin =>
      have I0 := R.split e1
      obtain ⟨h', r1, r2, e, I, ek, es, b1, b2, hrr, a1, a2⟩ := regSplitOff_ok I0 sd
      have hs := congrArg Prod.fst hrr
      have ht := congrArg Prod.snd hrr
      simp only at hs ht
      have hin1 : RngIn h'.sk r1.buf ⟨r1.off, r1.len⟩ := by
        rw [ek, b1]; refine hin.sub ?_
        rw [hs]; cases sd <;> simp only [Rng.split, Rng.left, Rng.right] <;> omega
      have hin2 : RngIn h'.sk r2.buf ⟨r2.off, r2.len⟩ := by
        rw [ek, b2]; refine hin.sub ?_
        rw [ht]; cases sd <;> simp only [Rng.split, Rng.left, Rng.right] <;> omega
      have q1 := HandRel.uniq (umax := umax) r1 hin1
      have q2 := HandRel.uniq (umax := umax) r2 hin2
      have ha1 : r1.alloc.isSome = (r.alloc.isSome && decide (0 < r1.len)) := by
        rw [a1]; split
        · simp [*]
        · simp; intro _; omega
      rw [hs, b1, ha1] at q1
      rw [ht, b2, a2] at q2
      have hl1 : r1.len = ((Rng.mk r.off r.len).split sd).1.len := by rw [← hs]
      rw [hl1] at q1
      refine .of0 (s' := ({ s with h := h' }.put k (.uniq r2)).push (.uniq r1)) (o := .handle) ?_
        (by simp only [World.act, e2]) (R.putPush e1 I (ek ▸ .refl _) (R.core.same (.of_eq ek es)) rfl q2 q1)
      simp only [exec, e1, e]; rfl
    | _ => exact .inv R (by simp only [exec, e1]) (by simp only [World.act, e2])

theorem sim_downgrade (R : Rel umax s w T) (k : Nat) : Sim umax s w T (.downgrade k) := by
  rcases R.at_ k with ⟨e1, e2⟩ | ⟨x, y, e1, e2, hr⟩
  · exact .inv R (by simp only [exec, e1]) (by simp only [World.act, e2])
  · have hm := R.tok_mem e1
    cases hr with
    | shared d i f p hl =>
      obtain ⟨h', g, e, I, ek, es⟩ := downgrade_ok R.inv hm
      refine .of0 (s' := { s with h := h' }.push (.weak (some d) g)) ?_ (by simp only [World.act, e2]; rfl)
        (R.push I (ek ▸ .refl _) (R.core.same (.of_eq ek es)) rfl (.weak d g f p (by rw [ek]; exact hl)))
      simp only [exec, e1, e]; rfl
    | _ => exact .inv R (by simp only [exec, e1]) (by simp only [World.act, e2])

theorem sim_intoImmut (R : Rel umax s w T) (k : Nat) : Sim umax s w T (.intoImmut k) := by
  rcases R.at_ k with ⟨e1, e2⟩ | ⟨x, y, e1, e2, hr⟩
  · exact .inv R (by simp only [exec, e1]) (by simp only [World.act, e2])
  · cases hr with
    | uniq r hin =>
      have I0 := R.split e1
      obtain ⟨h', d, i, e, I', x', es, em, eb, ef, eF, el⟩ := intoImmut_ok I0
      refine .of0 (s' := { s with h := h' }.put k (.strong d i)) (o := .done) ?_ (by simp only [World.act, e2]; rfl)
        (R.put e1 I' x'.toGrow (R.core.newFam x'.toGrow eb ef eF hin em es) rfl (.shared d i _ _ (by rw [el, R.core.nfam])))
      simp only [exec, e1, e]; rfl
    | _ => exact .inv R (by simp only [exec, e1]) (by simp only [World.act, e2])

end

end Verif.Rc
