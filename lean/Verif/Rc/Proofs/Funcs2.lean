import Verif.Rc.Proofs.Funcs
/-!
# What the functions of the library do to a well-formed heap (continued)
-/

namespace Verif.Rc
open Verif.Spec (Side Slot Family Rng)
variable {α : Type}
variable {h : Heap α} {S W : List Nat} {G : List Span}

/-- The last of several references cannot be dropped by accident. -/
theorem Good.decShared {x : Nat} (g : Good h (x :: S) W G) (hx : h.strong x ≠ 1) :
    ∃ h', h.decShared x = .ok h' ∧ Good h' S W G ∧ h'.sk = h.sk ∧ h'.slot = h.slot := by
  have := g.ledger.pos_of_tok (y := x) (by simp)
  exact ⟨{ h with strong := upd h.strong x (h.strong x - 1) },
    by simp only [Heap.decShared]; rw [if_neg (by omega), if_neg hx], ⟨g.shape, g.ledger.decS hx⟩, rfl, rfl⟩

/-- A reference in a node and one outside. -/
theorem Ledger.two {x y : Nat} {n : Node} (L : Ledger h (x :: S) W G) (hy : h.sk.node y = some n) (hm : x ∈ n.srefs) :
    2 ≤ h.strong x := by
  have h1 := L.s x
  have h2 := nsum_le hy (L.lt hy) (fun n => n.srefs.count x)
  have h3 := List.count_pos_iff.2 hm
  simp only [List.count_cons_self] at h1 h2; omega

/-- rc_slice.rs:301-327. -/
theorem ensureImg_ok : ∀ (fuel : Nat) {h : Heap α} {S W : List Nat} {G : List Span}, Good h S W G → ∀ {x : Nat} {v : GmgV},
    h.sk.node x = some (.gmg v) → x < fuel →
    ∃ h' c, ensureImg fuel h x = .ok (h', c) ∧ Good h' (c :: S) W G ∧ Same h h' ∧
      h'.sk.lab c = h.sk.lab x ∧ (∃ vc, h'.sk.node c = some (.img vc)) := by
  intro fuel
  induction fuel with
  | zero => intro h S W G g x v hx hf; omega
  | succ fuel ih =>
    intro h S W G g x v hx hf
    have hlt := g.ledger.lt hx
    have hwk : ∀ c, v.img = some c → 0 < h.weak c := by
      intro c hc
      exact g.ledger.wpos_of_ref hx (by simp [Node.wrefs, hc])
    rcases g.upgrade hwk with ⟨e, hdead⟩ | ⟨h', c, n, hc, e, g', e1, e2, hn⟩
    · cases hp : v.parent with
      | some q =>
        obtain ⟨p, s⟩ := q
        obtain ⟨hpx, hlp, vp, hvp⟩ := g.shape.gmgPar x v p s hx hp
        obtain ⟨h1, pi, e1, G1, sm1, hl1, vpi, hpi⟩ := ih g hvp (by omega)
        obtain ⟨h2, c, e2, G2, sm2, hl2, vc, hc2⟩ := imgCloneChild_ok G1 hpi s
        have hpi2 := sm2.lab pi (G1.ledger.lt hpi)
        obtain ⟨vpi2, hpin, _⟩ := sm2.img pi vpi hpi
        have hpar : vc.parent = some pi := by
          cases hq : vc.parent with
          | none =>
            have := G2.shape.imgRoot c vc hc2 hq
            rw [hl2] at this; cases this
          | some y =>
            obtain ⟨_, ⟨t, ht⟩, vy, hy⟩ := G2.shape.imgPar c vc y hc2 hq
            rw [hl2, ← hpi2] at ht
            rw [G2.shape.imgUniq _ _ _ _ hpin hy (Lab.child_inj ht).1]
        have h2' : 2 ≤ h2.strong pi :=
          Ledger.two (G2.permS (List.Perm.swap _ _ _)).ledger hc2 (by simp [Node.srefs, hpar])
        obtain ⟨h3, e3, G3, esk3, esl3⟩ := (G2.permS (List.Perm.swap _ _ _)).decShared (by omega)
        refine ⟨h3, c, ?_, G3, ?_, ?_, vc, by rw [esk3]; exact hc2⟩
        · simp only [ensureImg, getGmg_ok hx, e, hp, e1, e2, e3, bind, Except.bind, pure, Except.pure]
        · exact (sm1.trans g.shape.toBase G1.shape.toBase sm2).trans g.shape.toBase G2.shape.toBase (.of_eq esk3 esl3)
        · rw [esk3, hl2, hl1, hlp]
      | none =>
        obtain ⟨h1, e1, G1, esk, esl⟩ := g.incS (g.ledger.strong_pos hx)
        have hx1 : h1.sk.node x = some (.gmg v) := by rw [esk]; exact hx
        have hne : h1.sk.next ≠ x := by rw [esk]; omega
        have B1 := G1.shape.toBase
        have sh := G1.shape.imgRootNew hx1 hp (by rw [esk]; exact hdead)
        have L2 := Ledger.rcNew (n := .img ⟨none, noKids, x⟩) (S := S) (W := W) (G := G) G1.ledger (h1.sk.lab x)
        obtain ⟨h3, h4, e3, e4, L5, esk3, esk4, esl4, _⟩ := L2.replaceW (x := x) (c := h1.sk.next)
          (n' := .gmg { v with img := some h1.sk.next })
          (o := v.img) (add_node_old B1 hx1) (by show 0 < upd _ _ _ _; rw [upd_same]; omega) rfl rfl (by
            intro y
            simp only [Node.wrefs, List.count_append, List.count_cons, Option.toList, List.count_nil]; omega)
        have e5 : (h4.setNode x (.gmg { v with img := some h1.sk.next })).sk =
            (h1.sk.add (.img ⟨none, noKids, x⟩) (h1.sk.lab x)).set x (.gmg { v with img := some h1.sk.next }) := by
          show h4.sk.set _ _ = _
          rw [esk4]; rfl
        refine ⟨_, h1.sk.next, ?_, ⟨?_, L5⟩, ?_, ?_, ?_⟩
        · simp only [ensureImg, getGmg_ok hx, e, e1, hp, bind, Except.bind]
          have this3 : (h1.rcNew (.img ⟨none, noKids, x⟩) (h1.sk.lab x)).2 = h1.sk.next := rfl
          rw [this3, e3]
          simp only [e4]; rfl
        · rw [e5]; exact sh
        · have x1 : Ext h1.sk (h1.sk.add (.img ⟨none, noKids, x⟩) (h1.sk.lab x)) :=
            .add B1 (by simp [Node.kind])
          have x2 : Ext _ ((h1.sk.add (.img ⟨none, noKids, x⟩) (h1.sk.lab x)).set x
            (.gmg { v with img := some h1.sk.next })) := .setGmg (add_node_old B1 hx1) rfl
          have x3 := x1.trans B1 (B1.add (.img ⟨none, noKids, x⟩) (h1.sk.lab x)
              fun _ => B1.fam_data hx1 (by simp [Node.kind])) x2
          rw [← e5] at x3
          have e6 : h4.slot = h1.slot := esl4
          refine ⟨esk ▸ x3, e6.trans esl, ?_, ?_, ?_⟩ <;> rw [e5, ← esk] <;> rfl
        · rw [e5, ← esk]; exact upd_same _ _ _
        · rw [e5]; exact ⟨_, (set_node_ne _ _ hne).trans (add_node_new _ _ _)⟩
    · obtain ⟨h1, h2, h3⟩ := g.shape.gmgImg x v c hx hc
      obtain ⟨vc, hvc⟩ := g.shape.toBase.img_of hn h2
      refine ⟨h', c, ?_, g', .of_eq e1 e2, by rw [e1, h1], ⟨vc, by rw [e1]; exact hvc⟩⟩
      simp only [ensureImg, getGmg_ok hx, e, bind, Except.bind, pure, Except.pure]

/-- The ledger does not see labels, families and buffers. -/
theorem Ledger.frame {h' : Heap α} (L : Ledger h S W G) (e1 : h'.sk.node = h.sk.node) (e2 : h'.sk.next = h.sk.next)
    (e3 : h'.strong = h.strong) (e4 : h'.weak = h.weak) (e5 : h'.slot = h.slot) : Ledger h' S W G := by
  have hs : ∀ f, nsum h'.sk f = nsum h.sk f := by intro f; simp only [nsum, e1, e2]
  constructor
  · intro x; rw [hs, e3]; exact L.s x
  · intro x; rw [hs, e4]; exact L.w x
  · intro b i; rw [hs, e5]; exact L.o b i
  · rw [e1, e3]; exact L.live
  · rw [e1, e2]; exact L.fresh
  · rw [e2, e4]; exact L.freshW

/-- rc_slice.rs:252-267: the guards of a new family. -/
theorem imgNew_ok (g : Good h S W G) {f : Nat} (hf : f < h.sk.nfam)
    (hno : ∀ x w, h.sk.node x = some (.gmg w) → (h.sk.lab x).fam ≠ f) :
    ∃ h' i, imgNew h ⟨f, []⟩ = .ok (h', i) ∧ Good h' (i :: S) W G ∧ Same h h' ∧ h'.sk.lab i = ⟨f, []⟩ ∧
      (∃ v, h'.sk.node i = some (.img v)) ∧ h'.sk.fams = h.sk.fams := by
  have B := g.shape.toBase
  have sh1 := g.shape.gmgRootNew hf hno
  have L1 := Ledger.rcNew (n := .gmg ⟨none, noKids, none⟩) (S := S) (W := W) (G := G) g.ledger ⟨f, []⟩
  generalize hh1 : (h.rcNew (.gmg ⟨none, noKids, none⟩) ⟨f, []⟩).1 = h1 at L1
  have esk1 : h1.sk = h.sk.add (.gmg ⟨none, noKids, none⟩) ⟨f, []⟩ := by subst hh1; rfl
  have esl1 : h1.slot = h.slot := by subst hh1; rfl
  rw [← esk1] at sh1
  have B1 := sh1.toBase
  have hg1 : h1.sk.node h.sk.next = some (.gmg ⟨none, noKids, none⟩) := by rw [esk1]; exact add_node_new _ _ _
  have hlab1 : h1.sk.lab h.sk.next = ⟨f, []⟩ := by rw [esk1]; exact add_lab_new _ _ _
  have hn1 : h1.sk.next = h.sk.next + 1 := by rw [esk1]; rfl
  have sh2 := sh1.imgRootNew hg1 rfl (fun c hc => by cases hc)
  rw [hlab1] at sh2
  have L2 := Ledger.rcNew (n := .img ⟨none, noKids, h.sk.next⟩) (S := S) (W := W) (G := G) L1 ⟨f, []⟩
  obtain ⟨h3, h4, e3, e4, L5, esk3, esk4, esl4, _⟩ := L2.replaceW (x := h.sk.next) (c := h1.sk.next)
    (n' := .gmg ⟨none, noKids, some h1.sk.next⟩)
    (o := none) (add_node_old B1 hg1) (by show 0 < upd _ _ _ _; rw [upd_same]; omega) rfl rfl (by
      intro y
      simp [Node.wrefs, noKids])
  cases e4
  have e5 : (h3.setNode h.sk.next (.gmg ⟨none, noKids, some h1.sk.next⟩)).sk =
      (h1.sk.add (.img ⟨none, noKids, h.sk.next⟩) ⟨f, []⟩).set h.sk.next (.gmg ⟨none, noKids, some h1.sk.next⟩) := by
    show h3.sk.set _ _ = _
    rw [esk4]; rfl
  refine ⟨_, h1.sk.next, ?_, ⟨?_, L5⟩, ?_, ?_, ?_, ?_⟩
  · simp only [imgNew, bind, Except.bind]
    have t1 : (h.rcNew (.gmg ⟨none, noKids, none⟩) ⟨f, []⟩).2 = h.sk.next := rfl
    have t2 : (h1.rcNew (.img ⟨none, noKids, h.sk.next⟩) ⟨f, []⟩).2 = h1.sk.next := rfl
    rw [hh1, t1, t2, e3]; rfl
  · rw [e5]; exact sh2
  · have x1 : Ext h.sk h1.sk := by rw [esk1]; exact .add B (by simp [Node.kind])
    have x2 : Ext h1.sk (h1.sk.add (.img ⟨none, noKids, h.sk.next⟩) ⟨f, []⟩) := .add B1 (by simp [Node.kind])
    have x3 : Ext _ ((h1.sk.add (.img ⟨none, noKids, h.sk.next⟩) ⟨f, []⟩).set h.sk.next
      (.gmg ⟨none, noKids, some h1.sk.next⟩)) := .setGmg (add_node_old B1 hg1) rfl
    have hf1 : f < h1.sk.nfam := by rw [esk1]; exact hf
    have x4 := x1.trans B B1 (x2.trans B1 (B1.add (.img ⟨none, noKids, h.sk.next⟩) ⟨f, []⟩ fun _ => hf1) x3)
    rw [← e5] at x4
    refine ⟨x4, esl4.trans esl1, ?_, ?_, ?_⟩ <;> rw [e5, esk1] <;> rfl
  · rw [e5]; exact upd_same _ _ _
  · rw [e5]; exact ⟨_, (set_node_ne _ _ (by omega)).trans (add_node_new _ _ _)⟩
  · rw [e5, esk1]; rfl

/-- rc_slice.rs:334-336, 103-113: an `RcSlice` from the fields of a unique one. -/
theorem rcFromParts_ok {r : Reg} (g : Good h (r.alloc.toList ++ S) W (r.span :: G))
    (ha : ∀ a, r.alloc = some a → h.sk.node a = some (.alloc r.buf))
    (hz : 0 < r.len → r.alloc = none → h.sk.zst = true) :
    ∃ h' d i, rcFromParts h r = .ok (h', d, i) ∧ Good h' (d :: i :: S) W G ∧ Ext h.sk h'.sk ∧ h'.slot = h.slot ∧
      h'.sk.mem = h.sk.mem ∧ h'.sk.nbuf = h.sk.nbuf ∧ h'.sk.nfam = h.sk.nfam + 1 ∧
      h'.sk.fams h.sk.nfam = ⟨r.buf, ⟨r.off, r.len⟩, r.alloc.isSome⟩ ∧
      h'.sk.lab d = ⟨h.sk.nfam, []⟩ ∧ h'.sk.lab i = ⟨h.sk.nfam, []⟩ ∧ (∃ v, h'.sk.node d = some (.data v)) ∧
      (∃ v, h'.sk.node i = some (.img v)) := by
  have B := g.shape.toBase
  generalize hF : (Family.mk r.buf ⟨r.off, r.len⟩ r.alloc.isSome) = F
  generalize hh1 : (newFam h F).1 = h1
  have t1 : (newFam h F).2 = h.sk.nfam := rfl
  have esk1 : h1.sk = h.sk.famAdd F := by subst hh1; rfl
  have sh1 : Shape h1.sk := by rw [esk1]; exact g.shape.famAdd F
  have L1 : Ledger h1 (r.alloc.toList ++ S) W (r.span :: G) := by
    subst hh1; exact g.ledger.frame rfl rfl rfl rfl rfl
  have hfam1 : h1.sk.fams h.sk.nfam = F := by rw [esk1]; exact upd_same _ _ _
  have hnode1 : h1.sk.node = h.sk.node := by rw [esk1]; rfl
  have hlab1 : h1.sk.lab = h.sk.lab := by rw [esk1]; rfl
  have hnext1 : h1.sk.next = h.sk.next := by rw [esk1]; rfl
  have hlt1 : h.sk.nfam < h1.sk.nfam := by rw [esk1]; exact Nat.lt_succ_self _
  have hno : ∀ x n, h1.sk.node x = some n → n.kind ≠ .alloc → (h1.sk.lab x).fam ≠ h.sk.nfam := by
    intro x n hx hk
    rw [hnode1] at hx
    rw [hlab1]
    have := B.fam_data hx hk
    omega
  have B1 := sh1.toBase
  have sh2 := sh1.dataRoot (v := ⟨r.buf, r.off, r.len, r.alloc, noKids⟩) hlt1
    (fun x w hx => hno x _ hx (by simp [Node.kind])) (by rw [hfam1, ← hF]) (by rw [hfam1, ← hF])
    (by rw [hfam1, ← hF]) (by intro a h1; rw [hnode1]; exact ha a h1) (by rw [esk1]; exact hz) rfl
  have L2 : Ledger (h1.rcNew (.data ⟨r.buf, r.off, r.len, r.alloc, noKids⟩) ⟨h.sk.nfam, []⟩).1 (h1.sk.next :: S) W G := by
    apply Ledger.rcNew
    refine L1.congr (.refl _) (.refl _) ?_
    intro b i
    have := (DataV.mk r.buf r.off r.len r.alloc noKids).num_halves b i
    simp only [Node.spans, DataV.ownSub, noKids, Option.isNone, if_true, owners_append, owners_cons, owners_nil]
    simp only [DataV.span] at this
    simp only [Reg.span]
    omega
  generalize hh2 : (h1.rcNew (.data ⟨r.buf, r.off, r.len, r.alloc, noKids⟩) ⟨h.sk.nfam, []⟩).1 = h2 at L2
  have t2 : (h1.rcNew (.data ⟨r.buf, r.off, r.len, r.alloc, noKids⟩) ⟨h.sk.nfam, []⟩).2 = h1.sk.next := rfl
  have esk2 : h2.sk = h1.sk.add (.data ⟨r.buf, r.off, r.len, r.alloc, noKids⟩) ⟨h.sk.nfam, []⟩ := by subst hh2; rfl
  have esl2 : h2.slot = h.slot := by subst hh2; subst hh1; rfl
  rw [← esk2] at sh2
  have hlt2 : h.sk.nfam < h2.sk.nfam := by rw [esk2]; exact hlt1
  obtain ⟨h3, i, e3, G3, sm3, hl3, hi3, hfams3⟩ := imgNew_ok ⟨sh2, L2⟩ hlt2 (by
    intro x w hx
    rw [esk2] at hx ⊢
    replace hx := (add_other B1 (by simp [Node.kind])).1 hx
    rw [add_lab_old _ _ _ (B1.lt hx)]
    exact hno x _ hx (by simp [Node.kind]))
  have hd2 : h2.sk.node h1.sk.next = some (.data ⟨r.buf, r.off, r.len, r.alloc, noKids⟩) := by
    rw [esk2]; exact add_node_new _ _ _
  have x1 : Ext h.sk h1.sk := by
    rw [esk1]
    exact ⟨.famAdd _ _, fun _ v h => ⟨v, h, rfl, rfl, rfl, rfl⟩, fun _ v h => ⟨v, h, rfl, rfl⟩, fun _ v h => ⟨v, h, rfl⟩,
      fun _ _ h => h, fun _ v h => .inl ⟨v, h⟩, fun _ _ => rfl⟩
  have x2 : Ext h.sk h2.sk := by
    refine ⟨x1.toGrow.trans (esk2 ▸ Grow.add _ _ _), ?_, ?_, ?_, ?_, ?_, ?_⟩ <;> rw [esk2]
    · intro x v hx; exact ⟨v, add_node_old B1 (hnode1 ▸ hx), rfl, rfl, rfl, rfl⟩
    · intro x v hx; exact ⟨v, add_node_old B1 (hnode1 ▸ hx), rfl, rfl⟩
    · intro x v hx; exact ⟨v, add_node_old B1 (hnode1 ▸ hx), rfl⟩
    · intro x v hx; exact add_node_old B1 (hnode1 ▸ hx)
    · intro x v hx
      rcases (add_iff B1).1 hx with ⟨rfl, _⟩ | hx
      · exact .inr (.inr ⟨by omega, by rw [add_lab_new]; exact Nat.le_refl _⟩)
      · exact .inl ⟨v, hnode1 ▸ hx⟩
    · intro b _; rw [esk1]; rfl
  have hlabd : h3.sk.lab h1.sk.next = ⟨h.sk.nfam, []⟩ := by
    rw [sm3.lab _ (by rw [esk2]; exact Nat.lt_succ_self _), esk2]; exact add_lab_new _ _ _
  refine ⟨h3, h1.sk.next, i, ?_, G3.permS (List.Perm.swap _ _ _), x2.trans B sh2.toBase sm3.toExt, sm3.slot.trans esl2, ?_, ?_,
    ?_, ?_, hlabd, hl3, ?_, hi3⟩
  · simp only [rcFromParts, bind, Except.bind]
    rw [hF, t1, hh1, t2, hh2, e3]; rfl
  · rw [sm3.memEq, esk2, esk1]; rfl
  · rw [sm3.nbufEq, esk2, esk1]; rfl
  · rw [sm3.nfamEq, esk2, esk1]; rfl
  · rw [hfams3, esk2]; exact hfam1
  · obtain ⟨v', h', _⟩ := sm3.data _ _ hd2
    exact ⟨v', h'⟩

/-- rc_slice.rs:474-476. -/
theorem weakNew_ok (g : Good h S W G) : Good (weakNew h).1 ((weakNew h).2 :: S) W G ∧ Ext h.sk (weakNew h).1.sk ∧
    (weakNew h).1.slot = h.slot ∧ (weakNew h).1.sk.mem = h.sk.mem ∧ (weakNew h).1.sk.nbuf = h.sk.nbuf ∧
    (weakNew h).1.sk.kind (weakNew h).2 = .gmg := by
  have B := g.shape.toBase
  have sh1 := g.shape.famAdd ⟨0, ⟨0, 0⟩, false⟩
  have hno : ∀ x w, (h.sk.famAdd ⟨0, ⟨0, 0⟩, false⟩).node x = some (.gmg w) →
      ((h.sk.famAdd ⟨0, ⟨0, 0⟩, false⟩).lab x).fam ≠ h.sk.nfam := by
    intro x w hx e
    have := B.fam_data hx (by simp [Node.kind])
    have e' : (h.sk.lab x).fam = h.sk.nfam := e
    omega
  have sh2 := sh1.gmgRootNew (f := h.sk.nfam) (Nat.lt_succ_self _) hno
  have L1 : Ledger (newFam h ⟨0, ⟨0, 0⟩, false⟩).1 S W G := g.ledger.frame rfl rfl rfl rfl rfl
  have L2 := Ledger.rcNew (n := .gmg ⟨none, noKids, none⟩) (S := S) (W := W) (G := G) L1 ⟨h.sk.nfam, []⟩
  refine ⟨⟨sh2, L2⟩, ?_, rfl, rfl, rfl, upd_same _ _ _⟩
  have x1 : Ext h.sk (h.sk.famAdd ⟨0, ⟨0, 0⟩, false⟩) :=
    ⟨.famAdd _ _, fun _ v h => ⟨v, h, rfl, rfl, rfl, rfl⟩, fun _ v h => ⟨v, h, rfl, rfl⟩, fun _ v h => ⟨v, h, rfl⟩,
      fun _ _ h => h, fun _ v h => .inl ⟨v, h⟩, fun _ _ => rfl⟩
  exact x1.trans B sh1.toBase (.add sh1.toBase (by simp [Node.kind]))

end Verif.Rc
