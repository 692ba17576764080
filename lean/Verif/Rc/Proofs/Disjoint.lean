import Verif.Rc.Proofs.Refine
/-!
# Handles that overlap

Two handles that cover the same item are `RcSlice`s of one family, and one was cut from the
other.
-/

namespace Verif.Rc
open Verif.Spec (Side Slot Family Rng Hand World Op Obs End)
variable {α : Type}

section
variable {h : Heap α} {T : List Tok}

/-- Each item of slice data is owned by the data itself or by data below it. -/
theorem Good.owner {S W : List Nat} {G : List Span} (g : Good h S W G) {x : Nat} {v : DataV}
    (hx : h.sk.node x = some (.data v)) {j : Nat} (h1 : v.off ≤ j) (h2 : j < v.off + v.len) :
    ∃ y u, h.sk.node y = some (.data u) ∧ (h.sk.lab x).up (h.sk.lab y) ∧ 0 < owners (Node.data u).spans v.buf j := by
  generalize hn : h.sk.next - x = n
  induction n using Nat.strongRecOn generalizing x v with
  | ind n ih =>
    have key : ∀ s, v.subOff s ≤ j → j < v.subOff s + v.subLen s →
        ∃ y u, h.sk.node y = some (.data u) ∧ (h.sk.lab x).up (h.sk.lab y) ∧ 0 < owners (Node.data u).spans v.buf j := by
      intro s k1 k2
      cases hc : v.kids s with
      | none =>
        have hsp : v.sub s ∈ (Node.data v).spans := by
          cases s <;> simp [Node.spans, DataV.ownSub, hc]
        exact ⟨x, v, hx, Lab.up_refl _, owners_pos hsp (g := v.sub s) k1 k2⟩
      | some c =>
        obtain ⟨a1, a2, vc, a3⟩ := g.shape.dataKid x v s c hx hc
        have hlt := g.ledger.lt a3
        have e1 := (g.shape.vok hx).kid g.shape.toAShape (a2 ▸ g.shape.vok a3)
        have e2 := e1.1
        simp only [DataV.span, DataV.sub, Span.mk.injEq] at e2
        obtain ⟨e2, e3, e4⟩ := e2
        obtain ⟨y, u, b1, b2, b3⟩ := ih (h.sk.next - c) (by omega) a3 (by omega) (by omega) rfl
        refine ⟨y, u, b1, Lab.up_trans ?_ b2, e2 ▸ b3⟩
        rw [a2]; exact Lab.up_child _ _
    have hs : v.len >>> 1 ≤ v.len := by rw [Nat.shiftRight_eq_div_pow]; omega
    by_cases hj : j < v.off + (v.len >>> 1)
    · exact key .L (by simpa [DataV.subOff] using h1) (by simpa [DataV.subOff, DataV.subLen] using hj)
    · exact key .R (by simp only [DataV.subOff]; omega) (by simp only [DataV.subOff, DataV.subLen]; omega)

theorem num_le_one (x : Slot α) : num x ≤ 1 := by cases x <;> simp [num]

theorem Lab.up_comparable {a b c : Lab} (h1 : a.up c) (h2 : b.up c) : a.up b ∨ b.up a := by
  rcases Nat.le_total a.path.length b.path.length with h | h
  · exact .inl ⟨h1.1.trans h2.1.symm, List.suffix_of_suffix_length_le h1.2 h2.2 h⟩
  · exact .inr ⟨h2.1.trans h1.1.symm, List.suffix_of_suffix_length_le h2.2 h1.2 h⟩

theorem Inv.overlap {t1 t2 : Tok} (I : Inv h (t1 :: t2 :: T)) {b j : Nat} (h1 : t1.cov h.sk b j) (h2 : t2.cov h.sk b j) :
    ∃ d1 i1 d2 i2, t1 = .strong d1 i1 ∧ t2 = .strong d2 i2 ∧
      ((h.sk.lab d1).up (h.sk.lab d2) ∨ (h.sk.lab d2).up (h.sk.lab d1)) := by
  have hn := num_le_one (h.slot b j)
  rw [← I.good.ledger.o b j] at hn
  simp only [Gs_cons, owners_append] at hn
  have hreg : ∀ r : Reg, (Tok.reg r).cov h.sk b j → owners (Tok.reg r).G b j = 1 := by
    rintro r ⟨rfl, e1, e2⟩
    simp [Tok.G, Span.num, Reg.span, e1, e2]
  have hstr : ∀ d i, (Tok.strong d i).cov h.sk b j → ∃ y u, h.sk.node y = some (.data u) ∧ (h.sk.lab d).up (h.sk.lab y) ∧
      0 < owners (Node.data u).spans b j := by
    rintro d i ⟨v, hd, rfl, e1, e2⟩
    exact I.good.owner hd e1 e2
  have hsum : ∀ y u, h.sk.node y = some (.data u) → 0 < owners (Node.data u).spans b j →
      0 < nsum h.sk (fun n => owners n.spans b j) := by
    intro y u hy hp
    have := nsum_le hy (I.good.ledger.lt hy) (fun n => owners n.spans b j)
    omega
  cases t1 with
  | weak _ _ => exact h1.elim
  | loose _ => exact h1.elim
  | reg r1 =>
    have e1 := hreg _ h1
    cases t2 with
    | weak _ _ => exact h2.elim
    | loose _ => exact h2.elim
    | reg r2 => have e2 := hreg _ h2; omega
    | strong d i =>
      obtain ⟨y, u, hy, _, hp⟩ := hstr _ _ h2
      have := hsum y u hy hp; omega
  | strong d1 i1 =>
    obtain ⟨y1, u1, hy1, l1, p1⟩ := hstr _ _ h1
    cases t2 with
    | weak _ _ => exact h2.elim
    | loose _ => exact h2.elim
    | reg r2 =>
      have e2 := hreg _ h2
      have := hsum y1 u1 hy1 p1; omega
    | strong d2 i2 =>
      obtain ⟨y2, u2, hy2, l2, p2⟩ := hstr _ _ h2
      refine ⟨d1, i1, d2, i2, rfl, rfl, ?_⟩
      by_cases e : y1 = y2
      · subst e; exact Lab.up_comparable l1 l2
      · have := nsum_le2 hy1 (I.good.ledger.lt hy1) hy2 (I.good.ledger.lt hy2) e (fun n => owners n.spans b j)
        omega

/-- Nothing is left when there are no handles and no pending drops. -/
theorem Inv.nothing (I : Inv h []) : (∀ x, h.sk.node x = none) ∧ (∀ x, h.strong x = 0) ∧ (∀ x, h.weak x = 0) ∧
    (∀ b, h.sk.mem b = false) ∧ ∀ b i a, h.slot b i ≠ .live a := by
  have hq : Quiet [] := fun _ h => by cases h
  have hn : ∀ x, h.sk.node x = none := by
    intro x
    cases hx : h.sk.node x with
    | none => rfl
    | some n =>
      exfalso
      have hd : ∀ y v, h.sk.node y ≠ some (.data v) := by
        intro y v hy
        rcases I.data_held y hy with ⟨_, _, e, _⟩ | ⟨_, _, e, _⟩ <;> cases e
      have hi : ∀ y v, h.sk.node y ≠ some (.img v) := by
        intro y v hy
        obtain ⟨_, _, e, _⟩ := I.img_held hq hy
        cases e
      have hg : ∀ y v, h.sk.node y ≠ some (.gmg v) := by
        intro y v hy
        have := I.gmg_held hq hy
        grind
      cases n with
      | data v => exact hd x v hx
      | img v => exact hi x v hx
      | gmg v => exact hg x v hx
      | alloc b =>
        rcases I.holder hx with ⟨y, m, hy, hm⟩ | hm
        · cases m with
          | data v => exact hd y v hy
          | img v => exact hi y v hy
          | gmg v => exact hg y v hy
          | alloc b => cases hm
        · cases hm
  have hz : ∀ f, nsum h.sk f = 0 := by
    intro f
    exact sumTo_zero fun x _ => by rw [hn x]; rfl
  refine ⟨hn, fun x => ?_, fun x => ?_, fun b => ?_, fun b i a ha => ?_⟩
  · rw [I.good.ledger.s, hz]; rfl
  · rw [I.good.ledger.w, hz]; rfl
  · rw [← Bool.not_eq_true]; intro hm
    obtain ⟨_, ha, _⟩ := I.mem_held hm
    rw [hn] at ha; cases ha
  · obtain ⟨t, ht, _⟩ := I.live_cov hq ha; cases ht

end

section
variable {umax : Nat} {s : State α} {w : World α} {T : List Tok}

theorem Rel.cov_of (R : Rel umax s w T) {k : Nat} {y : Hand} (hk : w.get k = some y) {b i : Nat} (hc : w.covers b i y = true) :
    ∃ x, s.get k = some x ∧ HandRel umax s.h.sk x y ∧ (x.tok umax).cov s.h.sk b i := by
  rcases R.at_ k with ⟨_, e⟩ | ⟨x, y', e1, e2, hr⟩
  · rw [hk] at e; cases e
  · rw [hk] at e2; cases e2
    refine ⟨x, e1, hr, ?_⟩
    cases hr with
    | shared d i' f p hl =>
      obtain ⟨v, _, hd, _⟩ := R.inv.strong_live (R.tok_mem e1)
      obtain ⟨e3, e4, _⟩ := R.data_rng hd hl
      simp only [World.covers, e3, e4, Bool.and_eq_true, beq_iff_eq, has_iff] at hc
      exact ⟨v, hd, hc⟩
    | weak d g f p hl => simp [World.covers] at hc
    | weakNone g => simp [World.covers] at hc
    | uniq r hin =>
      simp only [World.covers, Bool.and_eq_true, beq_iff_eq, has_iff] at hc
      exact hc
    | iter r hin =>
      simp only [World.covers, Bool.and_eq_true, beq_iff_eq, has_iff] at hc
      exact hc
    | parts b' a m f c r h1 h2 h3 =>
      rw [tok_parts (R.core.rng_le h3).2 h1]
      simp only [World.covers, Bool.and_eq_true, beq_iff_eq] at hc
      rw [win_has h1, has_iff] at hc
      exact hc

theorem Rel.split2 (R : Rel umax s w T) {k k' : Nat} {x x' : Handle} (hk : s.get k = some x) (hk' : s.get k' = some x') (hne : k ≠ k') :
    ∃ T', Inv s.h (x.tok umax :: x'.tok umax :: T') := by
  have h1 : (tabToks umax s.hs).Perm (x.tok umax :: tabToks umax (s.hs.set k none)) := tabToks_get hk
  have h2 : (tabToks umax (s.hs.set k none)).Perm (x'.tok umax :: tabToks umax ((s.hs.set k none).set k' none)) :=
    tabToks_get (by rw [List.getElem?_set_ne hne]; exact hk')
  exact ⟨_, R.inv.perm ((h1.trans (h2.cons _)).append_right T)⟩

/-- Handles that overlap. -/
theorem Rel.overlap (R : Rel umax s w T) {k k' : Nat} {y y' : Hand} (hk : w.get k = some y) (hk' : w.get k' = some y') (hne : k ≠ k')
    {b i : Nat} (h1 : w.covers b i y = true) (h2 : w.covers b i y' = true) :
    ∃ f p p', y = .shared f p ∧ y' = .shared f p' ∧ (p <:+ p' ∨ p' <:+ p) := by
  obtain ⟨x, e1, r1, c1⟩ := R.cov_of hk h1
  obtain ⟨x', e2, r2, c2⟩ := R.cov_of hk' h2
  obtain ⟨T', I⟩ := R.split2 e1 e2 hne
  obtain ⟨d1, i1, d2, i2, t1, t2, hu⟩ := I.overlap c1 c2
  cases r1 with
  | shared d i f p hl =>
    cases r2 with
    | shared d' i' f' p' hl' =>
      simp only [Handle.tok, Tok.strong.injEq] at t1 t2
      obtain ⟨rfl, _⟩ := t1
      obtain ⟨rfl, _⟩ := t2
      rw [hl, hl'] at hu
      have hf : f = f' := by
        rcases hu with h | h
        · exact h.1
        · exact h.1.symm
      subst hf
      exact ⟨f, p, p', rfl, rfl, hu.imp (·.2) (·.2)⟩
    | parts b a m f c r q1 q2 q3 => rw [tok_parts (R.core.rng_le q3).2 q1] at t2; cases t2
    | _ => simp [Handle.tok] at t2
  | parts b a m f c r q1 q2 q3 => rw [tok_parts (R.core.rng_le q3).2 q1] at t1; cases t1
  | _ => simp [Handle.tok] at t1

/-- Families of handles exist. -/
theorem Rel.fam_lt (R : Rel umax s w T) {k f : Nat} {p : List Side} (hk : w.get k = some (.shared f p) ∨ w.get k = some (.weak f p)) :
    f < w.fams.length := by
  rw [R.core.nfam]
  rcases R.at_ k with ⟨_, e⟩ | ⟨x, y, e1, e2, hr⟩
  · rw [e] at hk; rcases hk with h | h <;> cases h
  · have ht := R.tok_mem e1
    cases hr with
    | shared d i f' p' hl =>
      rw [e2] at hk
      rcases hk with h | h
      · cases h
        obtain ⟨v, _, hd, _⟩ := R.inv.strong_live ht
        have := R.inv.good.shape.famLt d (R.inv.good.ledger.lt hd) (by rw [R.inv.good.shape.kinds _ _ hd]; simp [Node.kind])
        rwa [hl] at this
      · cases h
    | weak d g f' p' hl =>
      rw [e2] at hk
      rcases hk with h | h
      · cases h
      · cases h
        obtain ⟨h1, h2, _⟩ := (R.inv.toks _ ht).2.2 d rfl
        have := R.inv.good.shape.famLt d h2 (by rw [h1]; simp)
        rwa [hl] at this
    | _ => rw [e2] at hk; rcases hk with h | h <;> cases h

/-- Covered items are there. -/
theorem Rel.live (R : Rel umax s w T) {k : Nat} {y : Hand} (hk : w.get k = some y) {b i : Nat} (h1 : w.covers b i y = true) :
    ∃ a, w.items b i = .live a := by
  obtain ⟨x, e1, r1, c1⟩ := R.cov_of hk h1
  rw [R.core.items]
  exact R.inv.cov_live (R.tok_mem e1) c1

/-- Handles that own items of nonzero size keep the memory. -/
theorem Rel.keeps (R : Rel umax s w T) {k : Nat} {y : Hand} (hk : w.get k = some y) {b i : Nat} (h1 : w.covers b i y = true)
    (hz : w.zst = false) : w.keeps b y = true := by
  obtain ⟨x, e1, r1, c1⟩ := R.cov_of hk h1
  have ht := R.tok_mem e1
  rw [R.core.zst] at hz
  have hreg : ∀ r : Reg, .reg r ∈ tabToks umax s.hs ++ T → r.off ≤ i → i < r.off + r.len → r.alloc.isSome = true := by
    intro r hr _ _
    cases ha : r.alloc with
    | some a => rfl
    | none =>
      have := (R.inv.toks _ hr).2 (by omega) ha
      rw [hz] at this; cases this
  cases r1 with
  | shared d i' f p hl =>
    obtain ⟨v, hd, rfl, h3, h4⟩ := c1
    obtain ⟨e3, e4, e5, _⟩ := R.data_rng hd hl
    simp only [World.keeps, e3, e5, beq_self_eq_true, Bool.true_and]
    cases ha : v.alloc with
    | some a => rfl
    | none =>
      have := R.inv.good.shape.dataMem d v hd (by omega) ha
      rw [hz] at this; cases this
  | weak d g f p hl => exact c1.elim
  | weakNone g => exact c1.elim
  | uniq r hin =>
    obtain ⟨rfl, h3, h4⟩ := c1
    simp [World.keeps, hreg r ht h3 h4]
  | iter r hin =>
    obtain ⟨rfl, h3, h4⟩ := c1
    simp [World.keeps, hreg r ht h3 h4]
  | parts b' a m f c r q1 q2 q3 =>
    rw [tok_parts (R.core.rng_le q3).2 q1] at c1 ht
    obtain ⟨rfl, h3, h4⟩ := c1
    simpa [World.keeps] using hreg _ ht h3 h4

end

end Verif.Rc
