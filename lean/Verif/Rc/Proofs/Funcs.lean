import Verif.Rc.Proofs.Create
/-!
# What the functions of the library do to a well-formed heap
-/

namespace Verif.Rc
open Verif.Spec (Side Slot Family Rng)
variable {α : Type}

/-- `k'` knows everything `k` knows, and what is alive in `k` is alive in `k'`. -/
structure Ext (k k' : Skel) : Prop extends Grow k k' where
  data : ∀ x v, k.node x = some (.data v) → ∃ v', k'.node x = some (.data v') ∧ v'.buf = v.buf ∧ v'.off = v.off ∧
    v'.len = v.len ∧ v'.alloc = v.alloc
  img : ∀ x v, k.node x = some (.img v) → ∃ v', k'.node x = some (.img v') ∧ v'.gmg = v.gmg ∧ v'.parent = v.parent
  gmg : ∀ x v, k.node x = some (.gmg v) → ∃ v', k'.node x = some (.gmg v') ∧ v'.parent = v.parent
  alloc : ∀ x b, k.node x = some (.alloc b) → k'.node x = some (.alloc b)
  dataNew : ∀ x v', k'.node x = some (.data v') → (∃ v, k.node x = some (.data v)) ∨
    (k.next ≤ x ∧ (∃ q v, k.node q = some (.data v) ∧ (k.lab q).up (k'.lab x))) ∨ (k.next ≤ x ∧ k.nfam ≤ (k'.lab x).fam)
  memLe : ∀ b, b < k.nbuf → k'.mem b = k.mem b

theorem Ext.refl (k : Skel) : Ext k k where
  toGrow := Grow.refl k
  data _ v h := ⟨v, h, rfl, rfl, rfl, rfl⟩
  img _ v h := ⟨v, h, rfl, rfl⟩
  gmg _ v h := ⟨v, h, rfl⟩
  alloc _ _ h := h
  dataNew _ v h := .inl ⟨v, h⟩
  memLe _ _ := rfl

theorem Ext.trans {a b c : Skel} (B : Base a) (B' : Base b) (h1 : Ext a b) (h2 : Ext b c) : Ext a c where
  toGrow := h1.toGrow.trans h2.toGrow
  data x v h := by
    obtain ⟨v1, e1, e2, e3, e4, e5⟩ := h1.data x v h
    obtain ⟨v2, f1, f2, f3, f4, f5⟩ := h2.data x v1 e1
    exact ⟨v2, f1, f2.trans e2, f3.trans e3, f4.trans e4, f5.trans e5⟩
  img x v h := by
    obtain ⟨v1, e1, e2, e3⟩ := h1.img x v h
    obtain ⟨v2, f1, f2, f3⟩ := h2.img x v1 e1
    exact ⟨v2, f1, f2.trans e2, f3.trans e3⟩
  gmg x v h := by
    obtain ⟨v1, e1, e2⟩ := h1.gmg x v h
    obtain ⟨v2, f1, f2⟩ := h2.gmg x v1 e1
    exact ⟨v2, f1, f2.trans e2⟩
  alloc x b' h := h2.alloc x b' (h1.alloc x b' h)
  dataNew x v' h := by
    rcases h2.dataNew x v' h with ⟨v, h⟩ | ⟨h0, q, w, h, e⟩ | ⟨h0, h⟩
    · rcases h1.dataNew x v h with h3 | ⟨h0, q, w, h4, h5⟩ | ⟨h0, h4⟩
      · exact .inl h3
      · refine .inr (.inl ⟨h0, q, w, h4, ?_⟩); rw [h2.lab x (B'.lt h)]; exact h5
      · refine .inr (.inr ⟨h0, ?_⟩); rw [h2.lab x (B'.lt h)]; exact h4
    · have h0' : a.next ≤ x := Nat.le_trans h1.next h0
      rcases h1.dataNew q w h with ⟨w', h3⟩ | ⟨_, q', w', h4, h5⟩ | ⟨_, h4⟩
      · exact .inr (.inl ⟨h0', q, w', h3, by rw [← h1.lab q (B.lt h3)]; exact e⟩)
      · exact .inr (.inl ⟨h0', q', w', h4, Lab.up_trans h5 e⟩)
      · exact .inr (.inr ⟨h0', by rw [← e.1]; exact h4⟩)
    · exact .inr (.inr ⟨Nat.le_trans h1.next h0, Nat.le_trans h1.nfam h⟩)
  memLe x h := (h2.memLe x (Nat.lt_of_lt_of_le h h1.nbuf)).trans (h1.memLe x h)

/-- A well-formed heap with the references held outside. -/
structure Good (h : Heap α) (S W : List Nat) (G : List Span) : Prop where
  shape : Shape h.sk
  ledger : Ledger h S W G

/-- A change that neither touches items and buffers nor opens families. -/
structure Same (h h' : Heap α) : Prop extends Ext h.sk h'.sk where
  slot : h'.slot = h.slot
  memEq : h'.sk.mem = h.sk.mem
  nbufEq : h'.sk.nbuf = h.sk.nbuf
  nfamEq : h'.sk.nfam = h.sk.nfam

theorem Same.refl (h : Heap α) : Same h h := ⟨.refl _, rfl, rfl, rfl, rfl⟩

/-- Only counts change. -/
theorem Same.of_eq {h h' : Heap α} (e : h'.sk = h.sk) (es : h'.slot = h.slot) : Same h h' :=
  ⟨e ▸ .refl _, es, by rw [e], by rw [e], by rw [e]⟩

theorem Same.trans {a b c : Heap α} (B : Base a.sk) (B' : Base b.sk) (h1 : Same a b) (h2 : Same b c) : Same a c :=
  ⟨h1.toExt.trans B B' h2.toExt, h2.slot.trans h1.slot, h2.memEq.trans h1.memEq, h2.nbufEq.trans h1.nbufEq,
    h2.nfamEq.trans h1.nfamEq⟩

/-- A node is added that is no slice data. -/
theorem Ext.add {k : Skel} (B : Base k) {n : Node} {l : Lab} (hn : n.kind ≠ .data) : Ext k (k.add n l) where
  toGrow := .add k n l
  data _ v h := ⟨v, (add_iff B).2 (.inr h), rfl, rfl, rfl, rfl⟩
  img _ v h := ⟨v, (add_iff B).2 (.inr h), rfl, rfl⟩
  gmg _ v h := ⟨v, (add_iff B).2 (.inr h), rfl⟩
  alloc _ v h := (add_iff B).2 (.inr h)
  dataNew x v h := by
    rcases (add_iff B).1 h with ⟨_, rfl⟩ | h
    · exact absurd rfl hn
    · exact .inl ⟨v, h⟩
  memLe _ _ := rfl

/-- A node of slice data is added below another. -/
theorem Ext.addData {k : Skel} (B : Base k) {v : DataV} {l : Lab}
    (hn : (∃ q w, k.node q = some (.data w) ∧ (k.lab q).up l) ∨ k.nfam ≤ l.fam) : Ext k (k.add (.data v) l) where
  toGrow := .add k _ l
  data _ v h := ⟨v, (add_iff B).2 (.inr h), rfl, rfl, rfl, rfl⟩
  img _ v h := ⟨v, (add_iff B).2 (.inr h), rfl, rfl⟩
  gmg _ v h := ⟨v, (add_iff B).2 (.inr h), rfl⟩
  alloc _ v h := (add_iff B).2 (.inr h)
  dataNew x v h := by
    rcases (add_iff B).1 h with ⟨rfl, _⟩ | h
    · rw [add_lab_new]
      rcases hn with hn | hn
      · exact .inr (.inl ⟨Nat.le_refl _, hn⟩)
      · exact .inr (.inr ⟨Nat.le_refl _, hn⟩)
    · exact .inl ⟨v, h⟩
  memLe _ _ := rfl

theorem Ext.setData {k : Skel} {x : Nat} {v v' : DataV} (hx : k.node x = some (.data v)) (h1 : v'.buf = v.buf)
    (h2 : v'.off = v.off) (h3 : v'.len = v.len) (h4 : v'.alloc = v.alloc) : Ext k (k.set x (.data v')) where
  toGrow := .set k x _
  data y w h := by
    by_cases e : y = x
    · subst e; rw [hx] at h; cases h
      exact ⟨v', set_iff.2 (.inl ⟨rfl, rfl⟩), h1, h2, h3, h4⟩
    · exact ⟨w, set_iff.2 (.inr ⟨e, h⟩), rfl, rfl, rfl, rfl⟩
  img y w h := ⟨w, set_iff.2 (.inr ⟨(by rintro rfl; rw [hx] at h; cases h), h⟩), rfl, rfl⟩
  gmg y w h := ⟨w, set_iff.2 (.inr ⟨(by rintro rfl; rw [hx] at h; cases h), h⟩), rfl⟩
  alloc y w h := set_iff.2 (.inr ⟨(by rintro rfl; rw [hx] at h; cases h), h⟩)
  dataNew y w h := by
    rcases set_iff.1 h with ⟨rfl, _⟩ | h
    · exact .inl ⟨v, hx⟩
    · exact .inl ⟨w, h.2⟩
  memLe _ _ := rfl

theorem Ext.setImg {k : Skel} {x : Nat} {v v' : ImgV} (hx : k.node x = some (.img v)) (h1 : v'.gmg = v.gmg)
    (h2 : v'.parent = v.parent) : Ext k (k.set x (.img v')) where
  toGrow := .set k x _
  img y w h := by
    by_cases e : y = x
    · subst e; rw [hx] at h; cases h
      exact ⟨v', set_iff.2 (.inl ⟨rfl, rfl⟩), h1, h2⟩
    · exact ⟨w, set_iff.2 (.inr ⟨e, h⟩), rfl, rfl⟩
  data y w h := ⟨w, set_iff.2 (.inr ⟨(by rintro rfl; rw [hx] at h; cases h), h⟩), rfl, rfl, rfl, rfl⟩
  gmg y w h := ⟨w, set_iff.2 (.inr ⟨(by rintro rfl; rw [hx] at h; cases h), h⟩), rfl⟩
  alloc y w h := set_iff.2 (.inr ⟨(by rintro rfl; rw [hx] at h; cases h), h⟩)
  dataNew y w h := by
    rcases set_iff.1 h with ⟨_, h2⟩ | h
    · cases h2
    · exact .inl ⟨w, h.2⟩
  memLe _ _ := rfl

theorem Ext.setGmg {k : Skel} {x : Nat} {v v' : GmgV} (hx : k.node x = some (.gmg v)) (h1 : v'.parent = v.parent) :
    Ext k (k.set x (.gmg v')) where
  toGrow := .set k x _
  gmg y w h := by
    by_cases e : y = x
    · subst e; rw [hx] at h; cases h
      exact ⟨v', set_iff.2 (.inl ⟨rfl, rfl⟩), h1⟩
    · exact ⟨w, set_iff.2 (.inr ⟨e, h⟩), rfl⟩
  data y w h := ⟨w, set_iff.2 (.inr ⟨(by rintro rfl; rw [hx] at h; cases h), h⟩), rfl, rfl, rfl, rfl⟩
  img y w h := ⟨w, set_iff.2 (.inr ⟨(by rintro rfl; rw [hx] at h; cases h), h⟩), rfl, rfl⟩
  alloc y w h := set_iff.2 (.inr ⟨(by rintro rfl; rw [hx] at h; cases h), h⟩)
  dataNew y w h := by
    rcases set_iff.1 h with ⟨_, h2⟩ | h
    · cases h2
    · exact .inl ⟨w, h.2⟩
  memLe _ _ := rfl

/-- A node is made and another one overwritten. -/
theorem Ledger.rcNewSet {h : Heap α} {S S' W W' : List Nat} {G G' : List Span} (L : Ledger h S W G) {x : Nat}
    {n m old : Node} {l : Lab} (hx : h.sk.node x = some old)
    (hs : ∀ y, n.srefs.count y + m.srefs.count y + S'.count y =
      old.srefs.count y + S.count y + if y = h.sk.next then 1 else 0)
    (hw : ∀ y, n.wrefs.count y + m.wrefs.count y + W'.count y = old.wrefs.count y + W.count y)
    (ho : ∀ b i, owners n.spans b i + owners m.spans b i + owners G' b i = owners old.spans b i + owners G b i) :
    Ledger ((h.rcNew n l).1.setNode x m) S' W' G' := by
  have hlt := L.lt hx
  have hnone := L.fresh _ (Nat.le_refl _)
  have hz : h.strong h.sk.next = 0 := by
    have := L.live h.sk.next
    rw [hnone] at this; simp at this; omega
  have hsum1 : ∀ f, nsum (h.rcNew n l).1.sk f = nsum h.sk f + f n := by
    intro f
    simp only [nsum, Heap.rcNew, sumTo, upd_same]
    rw [sumTo_congr (g := fun x => ((h.sk.node x).map f).getD 0)]
    · simp
    · intro x hx; rw [upd_ne _ _ (by omega)]
  have hx1 : (h.rcNew n l).1.sk.node x = some old := by
    show upd h.sk.node h.sk.next (some n) x = _
    rw [upd_ne _ _ (by omega)]; exact hx
  have hsum : ∀ f, nsum ((h.rcNew n l).1.sk.set x m) f + f old = nsum h.sk f + f n + f m := by
    intro f
    have := nsum_set (n' := m) hx1 (Nat.lt_succ_of_lt hlt) f
    rw [hsum1] at this; exact this
  constructor
  · intro y
    have h1 := L.s y; have h2 := hsum (fun n => n.srefs.count y); have h3 := hs y
    show upd h.strong h.sk.next 1 y = nsum ((h.rcNew n l).1.sk.set x m) _ + _
    by_cases e : y = h.sk.next
    · subst e; rw [upd_same]; simp at h3; omega
    · rw [upd_ne _ _ e]; rw [if_neg e] at h3; omega
  · intro y
    have h1 := L.w y; have h2 := hsum (fun n => n.wrefs.count y); have h3 := hw y
    show h.weak y = nsum ((h.rcNew n l).1.sk.set x m) _ + _
    omega
  · intro b i
    have h1 := L.o b i; have h2 := hsum (fun n => owners n.spans b i); have h3 := ho b i
    show nsum ((h.rcNew n l).1.sk.set x m) _ + _ = num (h.slot b i)
    omega
  · intro y
    have h1 := L.live y
    simp only [Heap.setNode, Heap.rcNew, upd]
    by_cases e : y = x
    · subst e; have : y ≠ h.sk.next := by omega
      rw [hx] at h1; simp [this]; simpa using h1
    · by_cases e2 : y = h.sk.next
      · subst e2; simp [e]
      · simpa only [e, e2, if_false] using h1
  · intro y hy
    simp only [Heap.setNode, Heap.rcNew] at hy ⊢
    rw [upd_ne _ _ (by omega), upd_ne _ _ (by omega)]; exact L.fresh y (by omega)
  · intro y hy
    simp only [Heap.setNode, Heap.rcNew] at hy ⊢
    exact L.freshW y (by omega)

theorem getData_ok {h : Heap α} {d : Nat} {v : DataV} (hd : h.sk.node d = some (.data v)) : h.getData d = .ok v := by
  simp [Heap.getData, hd]
theorem getImg_ok {h : Heap α} {d : Nat} {v : ImgV} (hd : h.sk.node d = some (.img v)) : h.getImg d = .ok v := by
  simp [Heap.getImg, hd]
theorem getGmg_ok {h : Heap α} {d : Nat} {v : GmgV} (hd : h.sk.node d = some (.gmg v)) : h.getGmg d = .ok v := by
  simp [Heap.getGmg, hd]

section
variable {h : Heap α} {S W : List Nat} {G : List Span}

theorem Good.perm (g : Good h S W G) {S' W' : List Nat} {G' : List Span} (hs : S.Perm S') (hw : W.Perm W')
    (ho : ∀ b i, owners G b i = owners G' b i) : Good h S' W' G' :=
  ⟨g.shape, g.ledger.congr hs hw ho⟩

theorem Good.permS (g : Good h S W G) {S' : List Nat} (hs : S.Perm S') : Good h S' W G := g.perm hs (.refl _) fun _ _ => rfl

/-- `Rc::clone` of something alive. -/
theorem Good.incS (g : Good h S W G) {x : Nat} (hx : 0 < h.strong x) :
    ∃ h', h.incS x = .ok h' ∧ Good h' (x :: S) W G ∧ h'.sk = h.sk ∧ h'.slot = h.slot := by
  refine ⟨_, if_neg (by omega), ⟨g.shape, g.ledger.incS hx⟩, rfl, rfl⟩

theorem Good.incSOpt (g : Good h S W G) {o : Option Nat} (hx : ∀ x, o = some x → 0 < h.strong x) :
    ∃ h', h.incSOpt o = .ok h' ∧ Good h' (o.toList ++ S) W G ∧ h'.sk = h.sk ∧ h'.slot = h.slot := by
  cases o with
  | none => exact ⟨h, rfl, g, rfl, rfl⟩
  | some x => exact g.incS (hx x rfl)

theorem Good.incW (g : Good h S W G) {x : Nat} {n : Node} (hx : h.sk.node x = some n) :
    ∃ h', h.incW x = .ok h' ∧ Good h' S (x :: W) G ∧ h'.sk = h.sk ∧ h'.slot = h.slot := by
  have := g.ledger.strong_pos hx
  exact ⟨_, if_neg (by omega), ⟨g.shape, g.ledger.incW (g.ledger.lt hx)⟩, rfl, rfl⟩

theorem Good.decW {o : Option Nat} (g : Good h S (o.toList ++ W) G) :
    ∃ h', h.decW o = .ok h' ∧ Good h' S W G ∧ h'.sk = h.sk ∧ h'.slot = h.slot := by
  cases o with
  | none => exact ⟨h, rfl, g, rfl, rfl⟩
  | some x =>
    have := g.ledger.wpos_of_tok (y := x) (by simp)
    exact ⟨_, if_neg (by omega), ⟨g.shape, Ledger.decW (x := x) g.ledger⟩, rfl, rfl⟩

theorem Good.cloneW {o : Option Nat} (g : Good h S W G) (ho : ∀ x, o = some x → x ∈ W) :
    ∃ h', h.cloneW o = .ok h' ∧ Good h' S (o.toList ++ W) G ∧ h'.sk = h.sk ∧ h'.slot = h.slot := by
  cases o with
  | none => exact ⟨h, rfl, g, rfl, rfl⟩
  | some x =>
    have h1 := g.ledger.wpos_of_tok (y := x) (ho x rfl)
    refine ⟨_, if_neg (by omega), ⟨g.shape, g.ledger.incW ?_⟩, rfl, rfl⟩
    apply Nat.lt_of_not_le; intro hle
    have := g.ledger.freshW x hle; omega

/-- rc_slice.rs:115-145. -/
theorem dataCloneChild_ok (g : Good h S W G) {d : Nat} {v : DataV} (hd : h.sk.node d = some (.data v)) (s : Side) :
    ∃ h' c, dataCloneChild h d s = .ok (h', c) ∧ Good h' (c :: S) W G ∧ Same h h' ∧
      h'.sk.lab c = (h.sk.lab d).child s ∧ ∃ vc, h'.sk.node c = some (.data vc) := by
  have hlt := g.ledger.lt hd
  cases hk : v.kids s with
  | some c =>
    obtain ⟨_, h2, vc, h3⟩ := g.shape.dataKid d v s c hd hk
    obtain ⟨h', e, g', e1, e2⟩ := g.incS (g.ledger.strong_pos h3)
    refine ⟨h', c, ?_, g', .of_eq e1 e2, ?_, vc, ?_⟩
    · simp [dataCloneChild, getData_ok hd, hk, e, bind, Except.bind, pure, Except.pure]
    · rw [e1, h2]
    · rw [e1]; exact h3
  | none =>
    have hal : ∀ a, (if v.subLen s = 0 then none else v.alloc) = some a → 0 < h.strong a := by
      intro a ha
      split at ha
      · cases ha
      · exact g.ledger.strong_pos (g.shape.dataAlloc d v a hd ha)
    obtain ⟨h1, e, g1, e1, e2⟩ := g.incSOpt hal
    have hd1 : h1.sk.node d = some (.data v) := by rw [e1]; exact hd
    have hne : d ≠ h1.sk.next := by rw [e1]; omega
    have sh := g1.shape.dataChild hd1 hk
    have hnew : ((h1.rcNew (.data (v.kid s)) ((h1.sk.lab d).child s)).1.setNode d (.data (v.setKid s h1.sk.next))).sk.node
        h1.sk.next = some (.data (v.kid s)) := by
      show upd (upd _ _ _) d _ _ = _
      rw [upd_ne _ _ (by omega), upd_same]
    have L1 : Ledger ((h1.rcNew (.data (v.kid s)) ((h1.sk.lab d).child s)).1.setNode d (.data (v.setKid s h1.sk.next)))
        S W G := by
      refine g1.ledger.rcNewSet hd1 ?_ ?_ ?_
      · intro y
        rw [show (Node.data (v.kid s)).srefs = (if v.subLen s = 0 then none else v.alloc).toList by
          simp [Node.srefs, DataV.kid, noKids]]
        simp only [List.count_append]
        have : (Node.data (v.setKid s h1.sk.next)).srefs.count y = (Node.data v).srefs.count y +
            if y = h1.sk.next then 1 else 0 := by
          cases s <;> simp only [Node.srefs, DataV.setKid, List.count_append, if_true, hk, reduceCtorEq, if_false,
            Option.toList, List.count_nil, List.count_singleton, beq_iff_eq, eq_comm (a := h1.sk.next)] <;> omega
        rw [this]; omega
      · intro y; simp [Node.wrefs]
      · intro b i
        have h2 : owners (Node.data (v.kid s)).spans b i = (v.sub s).num b i := by
          have := (v.kid s).num_halves b i
          simp only [Node.spans, DataV.ownSub, DataV.kid, noKids, Option.isNone, if_true, owners_append, owners_cons,
            owners_nil]
          simpa [DataV.kid, DataV.span, DataV.sub] using this
        have h3 : owners (Node.data v).spans b i = owners (Node.data (v.setKid s h1.sk.next)).spans b i + (v.sub s).num b i := by
          cases s <;> simp only [Node.spans, DataV.ownSub, DataV.setKid, if_true, hk, reduceCtorEq, if_false,
            Option.isNone, owners_append, owners_cons, owners_nil] <;> simp [DataV.sub, DataV.subLen, DataV.subOff] <;> omega
        omega
    have G1 : Good _ _ _ _ := ⟨sh, L1⟩
    have hpos := L1.strong_pos hnew
    obtain ⟨h', e', g', e1', e2'⟩ := G1.incS hpos
    refine ⟨h', h1.sk.next, ?_, g', ?_, ?_, v.kid s, ?_⟩
    · simp only [Heap.incS] at e'
      rw [if_neg (by omega)] at e'
      injection e' with e'
      simp only [dataCloneChild, getData_ok hd, hk, bind, Except.bind, e, Heap.incS]
      have : (h1.rcNew (.data (v.kid s)) ((h1.sk.lab d).child s)).1.strong h1.sk.next = 1 := upd_same _ _ _
      have this2 : (h1.rcNew (.data ⟨v.buf, v.subOff s, v.subLen s, if v.subLen s = 0 then none else v.alloc, noKids⟩)
        ((h1.sk.lab d).child s)).1.strong h1.sk.next = 1 := this
      have this3 : (h1.rcNew (.data ⟨v.buf, v.subOff s, v.subLen s, if v.subLen s = 0 then none else v.alloc, noKids⟩)
        ((h1.sk.lab d).child s)).2 = h1.sk.next := rfl
      rw [this3, if_neg (by rw [this2]; omega)]
      simp only [pure, Except.pure]
      rw [← e']; rfl
    · have x1 : Ext h1.sk (h1.sk.add (.data (v.kid s)) ((h1.sk.lab d).child s)) :=
        .addData g1.shape.toBase (.inl ⟨d, v, hd1, Lab.up_child _ _⟩)
      have hd2 : (h1.sk.add (.data (v.kid s)) ((h1.sk.lab d).child s)).node d = some (.data v) :=
        (add_iff g1.shape.toBase).2 (.inr hd1)
      have x2 : Ext _ ((h1.sk.add (.data (v.kid s)) ((h1.sk.lab d).child s)).set d (.data (v.setKid s h1.sk.next))) :=
        .setData hd2 rfl rfl rfl rfl
      have x3 := x1.trans g1.shape.toBase (g1.shape.toBase.add (.data (v.kid s)) ((h1.sk.lab d).child s)
          fun _ => g1.shape.fam_data hd1 (by simp [Node.kind])) x2
      have e3 : h'.sk = (h1.sk.add (.data (v.kid s)) ((h1.sk.lab d).child s)).set d (.data (v.setKid s h1.sk.next)) := e1'
      rw [← e3, e1] at x3
      refine ⟨x3, e2'.trans e2, ?_, ?_, ?_⟩ <;> rw [e3, ← e1] <;> rfl
    · rw [e1', ← e1]; exact upd_same _ _ _
    · rw [e1']; exact hnew

/-- Overwriting a value, with the references counted on both sides. -/
theorem Ledger.exchange {S' W' : List Nat} {G' : List Span} (L : Ledger h S W G) {x : Nat} {n n' : Node}
    (hx : h.sk.node x = some n)
    (hs : ∀ y, n'.srefs.count y + S'.count y = n.srefs.count y + S.count y)
    (hw : ∀ y, n'.wrefs.count y + W'.count y = n.wrefs.count y + W.count y)
    (ho : ∀ b i, owners n'.spans b i + owners G' b i = owners n.spans b i + owners G b i) :
    Ledger (h.setNode x n') S' W' G' := by
  have hlt := L.lt hx
  have hsum : ∀ f, nsum (h.setNode x n').sk f + f n = nsum h.sk f + f n' := fun f => nsum_set (n' := n') hx hlt f
  constructor
  · intro y
    have h1 := L.s y; have h2 := hsum (fun n => n.srefs.count y); have h3 := hs y
    show h.strong y = _; omega
  · intro y
    have h1 := L.w y; have h2 := hsum (fun n => n.wrefs.count y); have h3 := hw y
    show h.weak y = _; omega
  · intro b i
    have h1 := L.o b i; have h2 := hsum (fun n => owners n.spans b i); have h3 := ho b i
    show _ = num (h.slot b i); omega
  · intro y
    have h1 := L.live y
    simp only [Heap.setNode, upd]
    by_cases e : y = x
    · subst e; rw [hx] at h1; simpa using h1
    · simpa only [e, if_false] using h1
  · intro y hy
    simp only [Heap.setNode] at hy ⊢
    rw [upd_ne _ _ (by omega)]; exact L.fresh y hy
  · exact L.freshW

/-- `Weak::upgrade` of a counted reference. -/
theorem Good.upgrade (g : Good h S W G) {o : Option Nat} (ho : ∀ x, o = some x → 0 < h.weak x) :
    (h.upgrade o = .ok none ∧ ∀ x, o = some x → h.sk.node x = none) ∨
    ∃ h' x n, o = some x ∧ h.upgrade o = .ok (some (h', x)) ∧ Good h' (x :: S) W G ∧ h'.sk = h.sk ∧ h'.slot = h.slot ∧
      h.sk.node x = some n := by
  cases o with
  | none => exact .inl ⟨rfl, fun x h => by cases h⟩
  | some x =>
    have h1 := ho x rfl
    by_cases h2 : h.strong x = 0
    · refine .inl ⟨?_, ?_⟩
      · simp only [Heap.upgrade]; rw [if_neg (by omega), if_pos h2]
      · intro y e; cases e
        cases hn : h.sk.node x with
        | none => rfl
        | some n => have := g.ledger.strong_pos hn; omega
    · obtain ⟨n, hn⟩ := g.ledger.node_of_pos (x := x) (by omega)
      refine .inr ⟨{ h with strong := upd h.strong x (h.strong x + 1) }, x, n, rfl, ?_, ⟨g.shape, g.ledger.incS (by omega)⟩,
        rfl, rfl, hn⟩
      simp only [Heap.upgrade]; rw [if_neg (by omega), if_neg h2]

theorem decW_setNode (h : Heap α) (x : Nat) (n : Node) (o : Option Nat) :
    (h.setNode x n).decW o = (h.decW o).map (·.setNode x n) := by
  cases o with
  | none => rfl
  | some y =>
    simp only [Heap.decW]
    by_cases e : h.weak y = 0
    · rw [if_pos e, if_pos (show (h.setNode x n).weak y = 0 from e)]; rfl
    · rw [if_neg e, if_neg (show ¬(h.setNode x n).weak y = 0 from e)]; rfl

/-- Dropping a weak reference, ledger only. -/
theorem Ledger.decW_ok {o : Option Nat} (L : Ledger h S (o.toList ++ W) G) :
    ∃ h', h.decW o = .ok h' ∧ Ledger h' S W G ∧ h'.sk = h.sk ∧ h'.slot = h.slot := by
  cases o with
  | none => exact ⟨h, rfl, L, rfl, rfl⟩
  | some x =>
    have := L.wpos_of_tok (y := x) (by simp)
    exact ⟨_, if_neg (by omega), Ledger.decW (x := x) L, rfl, rfl⟩

theorem Base.gmg_of {k : Skel} (B : Base k) {x : Nat} {n : Node} (hx : k.node x = some n) (hk : k.kind x = .gmg) :
    ∃ v, k.node x = some (.gmg v) := by
  have := B.kinds x n hx
  cases n <;> simp_all [Node.kind]

theorem Base.img_of {k : Skel} (B : Base k) {x : Nat} {n : Node} (hx : k.node x = some n) (hk : k.kind x = .img) :
    ∃ v, k.node x = some (.img v) := by
  have := B.kinds x n hx
  cases n <;> simp_all [Node.kind]

theorem Base.data_of {k : Skel} (B : Base k) {x : Nat} {n : Node} (hx : k.node x = some n) (hk : k.kind x = .data) :
    ∃ v, k.node x = some (.data v) := by
  have := B.kinds x n hx
  cases n <;> simp_all [Node.kind]

/-- A `Weak` field is replaced by a reference to `c`. -/
theorem Ledger.replaceW (L : Ledger h S W G) {x c : Nat} {n n' : Node} {o : Option Nat} (hx : h.sk.node x = some n)
    (hc : 0 < h.strong c) (hs : n'.srefs = n.srefs) (ho : n'.spans = n.spans)
    (hw : ∀ y, n'.wrefs.count y + o.toList.count y = n.wrefs.count y + [c].count y) :
    ∃ h1 h2, h.incW c = .ok h1 ∧ h1.decW o = .ok h2 ∧ Ledger (h2.setNode x n') S W G ∧ h1.sk = h.sk ∧ h2.sk = h.sk ∧
      h2.slot = h.slot ∧ h2.strong = h.strong := by
  obtain ⟨m, hm⟩ := L.node_of_pos hc
  have L3 := L.incW (x := c) (L.lt hm)
  have e3 : h.incW c = .ok _ := if_neg (by omega)
  have L4 : Ledger (Heap.setNode { h with weak := upd h.weak c (h.weak c + 1) } x n') S (o.toList ++ W) G := by
    refine L3.exchange hx (fun y => by rw [hs]) ?_ (fun b i => by rw [ho])
    intro y
    have := hw y
    simp only [List.count_append, List.count_cons, List.count_nil] at this ⊢
    omega
  obtain ⟨h5, e5, L5, esk5, esl5⟩ := L4.decW_ok
  rw [decW_setNode] at e5
  cases e6 : ({ h with weak := upd h.weak c (h.weak c + 1) } : Heap α).decW o with
  | error u => rw [e6] at e5; cases e5
  | ok h2 =>
    rw [e6] at e5
    injection e5 with e5
    replace e5 : h2.setNode x n' = h5 := e5
    have hp : h2.sk = h.sk ∧ h2.slot = h.slot ∧ h2.strong = h.strong := by
      cases o with
      | none => cases e6; exact ⟨rfl, rfl, rfl⟩
      | some y =>
        simp only [Heap.decW] at e6
        split at e6
        · cases e6
        · cases e6; exact ⟨rfl, rfl, rfl⟩
    exact ⟨_, h2, e3, e6, e5 ▸ L5, rfl, hp⟩

theorem add_node_old {k : Skel} (B : Base k) {n m : Node} {l : Lab} {x : Nat} (h : k.node x = some m) :
    (k.add n l).node x = some m := (add_iff B).2 (.inr h)
theorem add_node_new (k : Skel) (n : Node) (l : Lab) : (k.add n l).node k.next = some n := upd_same _ _ _
theorem set_node_same (k : Skel) (x : Nat) (n : Node) : (k.set x n).node x = some n := upd_same _ _ _
theorem set_node_ne (k : Skel) {x y : Nat} (n : Node) (h : y ≠ x) : (k.set x n).node y = k.node y := upd_ne _ _ h

/-- rc_slice.rs:273-289. -/
theorem gmgCloneChild_ok (g : Good h S W G) {x : Nat} {v : GmgV} (hx : h.sk.node x = some (.gmg v)) (s : Side) :
    ∃ h' c, gmgCloneChild h x s = .ok (h', c) ∧ Good h' (c :: S) W G ∧ Same h h' ∧
      h'.sk.lab c = (h.sk.lab x).child s ∧ (∃ vc, h'.sk.node c = some (.gmg vc)) ∧
      ∀ y m, m.kind ≠ .gmg → (h'.sk.node y = some m ↔ h.sk.node y = some m) := by
  have hlt := g.ledger.lt hx
  have hwk : ∀ c, v.kids s = some c → 0 < h.weak c := by
    intro c hc
    refine g.ledger.wpos_of_ref hx ?_
    cases s <;> simp [Node.wrefs, hc]
  rcases g.upgrade hwk with ⟨e, hdead⟩ | ⟨h', c, n, hc, e, g', e1, e2, hn⟩
  · -- a new guard
    obtain ⟨h1, e1, G1, esk, esl⟩ := g.incS (g.ledger.strong_pos hx)
    have hx1 : h1.sk.node x = some (.gmg v) := by rw [esk]; exact hx
    have hne : h1.sk.next ≠ x := by rw [esk]; omega
    have B1 := G1.shape.toBase
    have sh := G1.shape.gmgChild hx1 (s := s) (by rw [esk]; exact hdead)
    have L2 := Ledger.rcNew (n := .gmg ⟨some (x, s), noKids, none⟩) (S := S) (W := W) (G := G) G1.ledger
      ((h1.sk.lab x).child s)
    obtain ⟨h3, h4, e3, e4, L5, esk3, esk4, esl4, _⟩ := L2.replaceW (x := x) (c := h1.sk.next) (n' := .gmg (v.setKid s h1.sk.next))
      (o := v.kids s) (add_node_old B1 hx1) (by show 0 < upd _ _ _ _; rw [upd_same]; omega) rfl rfl (by
        intro y
        cases s <;> simp only [Node.wrefs, GmgV.setKid, List.count_append, List.count_cons, if_true, reduceCtorEq, if_false,
          Option.toList, List.count_nil] <;> omega)
    have e5 : (h4.setNode x (.gmg (v.setKid s h1.sk.next))).sk =
        (h1.sk.add (.gmg ⟨some (x, s), noKids, none⟩) ((h1.sk.lab x).child s)).set x (.gmg (v.setKid s h1.sk.next)) := by
      show h4.sk.set _ _ = _
      rw [esk4]; rfl
    refine ⟨_, h1.sk.next, ?_, ⟨?_, L5⟩, ?_, ?_, ?_, ?_⟩
    · simp only [gmgCloneChild, getGmg_ok hx, e, e1, bind, Except.bind]
      have this3 : (h1.rcNew (.gmg ⟨some (x, s), noKids, none⟩) ((h1.sk.lab x).child s)).2 = h1.sk.next := rfl
      rw [this3, e3]
      simp only [e4]; rfl
    · rw [e5]; exact sh
    · have x1 : Ext h1.sk (h1.sk.add (.gmg ⟨some (x, s), noKids, none⟩) ((h1.sk.lab x).child s)) :=
        .add B1 (by simp [Node.kind])
      have x2 : Ext _ ((h1.sk.add (.gmg ⟨some (x, s), noKids, none⟩) ((h1.sk.lab x).child s)).set x
        (.gmg (v.setKid s h1.sk.next))) := .setGmg (add_node_old B1 hx1) rfl
      have x3 := x1.trans B1 (B1.add (.gmg ⟨some (x, s), noKids, none⟩) ((h1.sk.lab x).child s)
          fun _ => B1.fam_data hx1 (by simp [Node.kind])) x2
      rw [← e5] at x3
      have e6 : h4.slot = h1.slot := esl4
      refine ⟨esk ▸ x3, e6.trans esl, ?_, ?_, ?_⟩ <;> rw [e5, ← esk] <;> rfl
    · rw [e5, ← esk]; exact upd_same _ _ _
    · rw [e5]; exact ⟨_, (set_node_ne _ _ hne).trans (add_node_new _ _ _)⟩
    · intro y m hm
      rw [e5, ← esk]
      by_cases e : y = x
      · subst e; rw [set_node_same, hx1]
        constructor <;> (intro h; cases h; exact absurd rfl hm)
      · rw [set_node_ne _ _ e]; exact add_other B1 hm
  · obtain ⟨h1, h2, h3⟩ := g.shape.gmgKid x v s c hx hc
    obtain ⟨vc, hvc⟩ := g.shape.toBase.gmg_of hn h2
    refine ⟨h', c, ?_, g', .of_eq e1 e2, by rw [e1, h1], ⟨vc, by rw [e1]; exact hvc⟩, fun y m _ => by rw [e1]⟩
    simp only [gmgCloneChild, getGmg_ok hx, e, bind, Except.bind, pure, Except.pure]

/-- rc_slice.rs:229-249. -/
theorem imgCloneChild_ok (g : Good h S W G) {i : Nat} {v : ImgV} (hi : h.sk.node i = some (.img v)) (s : Side) :
    ∃ h' c, imgCloneChild h i s = .ok (h', c) ∧ Good h' (c :: S) W G ∧ Same h h' ∧
      h'.sk.lab c = (h.sk.lab i).child s ∧ (∃ vc, h'.sk.node c = some (.img vc)) := by
  have hlt := g.ledger.lt hi
  have hwk : ∀ c, v.kids s = some c → 0 < h.weak c := by
    intro c hc
    refine g.ledger.wpos_of_ref hi ?_
    cases s <;> simp [Node.wrefs, hc]
  rcases g.upgrade hwk with ⟨e, hdead⟩ | ⟨h', c, n, hc, e, g', e1, e2, hn⟩
  · obtain ⟨hl0, vg0, hg0⟩ := g.shape.imgGmg i v hi
    obtain ⟨h1, gc, e1, G1, sm1, hl1, ⟨vg, hg1⟩, oth⟩ := gmgCloneChild_ok g hg0 s
    have hi1 : h1.sk.node i = some (.img v) := (oth _ _ (by simp [Node.kind])).2 hi
    have hli : h1.sk.lab i = h.sk.lab i := sm1.lab i hlt
    rw [hl0, ← hli] at hl1
    obtain ⟨h2, e2, G2, esk2, esl2⟩ := G1.incS (G1.ledger.strong_pos hi1)
    have hi2 : h2.sk.node i = some (.img v) := by rw [esk2]; exact hi1
    have hg2 : h2.sk.node gc = some (.gmg vg) := by rw [esk2]; exact hg1
    have hl2 : h2.sk.lab gc = (h2.sk.lab i).child s := by rw [esk2]; exact hl1
    have B2 := G2.shape.toBase
    have hig : i ≠ gc := by rintro rfl; rw [hi2] at hg2; cases hg2
    have hltg := B2.lt hg2
    have hlti := B2.lt hi2
    have hdead2 : ∀ c, v.kids s = some c → h2.sk.node c = none := by
      intro c hc
      rw [esk2]
      obtain ⟨_, hkc, hcl⟩ := g.shape.imgKid i v s c hi hc
      cases hn : h1.sk.node c with
      | none => rfl
      | some m =>
        have h3 : m.kind = .img := by rw [← G1.shape.kinds c m hn, sm1.kind c hcl]; exact hkc
        have := (oth c m (by rw [h3]; simp)).1 hn
        rw [hdead c hc] at this; cases this
    have sh := G2.shape.imgChild hi2 hdead2 hg2 hl2
    generalize hn : (Node.img ⟨some i, noKids, gc⟩) = n at sh
    have hns : n.srefs ++ S = i :: gc :: S := by subst hn; rfl
    have L3 := Ledger.rcNew (n := n) (S := S) (W := W) (G := G)
      (by have := G2.ledger; rw [← hns] at this; subst hn; exact this) ((h2.sk.lab i).child s)
    obtain ⟨h4, h5, e4, e5, L5, esk4, esk5, esl5, est5⟩ := L3.replaceW (x := gc) (c := h2.sk.next)
      (n' := .gmg { vg with img := some h2.sk.next })
      (o := vg.img) (add_node_old B2 hg2) (by show 0 < upd _ _ _ _; rw [upd_same]; omega) rfl rfl (by
        intro y
        simp only [Node.wrefs, List.count_append, List.count_cons, Option.toList, List.count_nil]; omega)
    have esk5' : (h5.setNode gc (.gmg { vg with img := some h2.sk.next })).sk =
        (h2.sk.add n ((h2.sk.lab i).child s)).set gc (.gmg { vg with img := some h2.sk.next }) := by
      show h5.sk.set _ _ = _
      rw [esk5]; rfl
    have hi5 : (h5.setNode gc (.gmg { vg with img := some h2.sk.next })).sk.node i = some (.img v) := by
      rw [esk5', set_node_ne _ _ hig]; exact add_node_old B2 hi2
    obtain ⟨h6, h7, e6, e7, L7, esk6, esk7, esl7, est7⟩ := L5.replaceW (x := i) (c := h2.sk.next)
      (n' := .img (v.setKid s h2.sk.next))
      (o := v.kids s) hi5 (by show 0 < h5.strong _; rw [est5]; show 0 < upd _ _ _ _; rw [upd_same]; omega) rfl rfl (by
        intro y
        cases s <;> simp only [Node.wrefs, ImgV.setKid, List.count_append, List.count_cons, if_true, reduceCtorEq, if_false,
          Option.toList, List.count_nil] <;> omega)
    have esk8 : (h7.setNode i (.img (v.setKid s h2.sk.next))).sk =
        ((h2.sk.add n ((h2.sk.lab i).child s)).set gc (.gmg { vg with img := some h2.sk.next })).set i
          (.img (v.setKid s h2.sk.next)) := by
      show h7.sk.set _ _ = _
      rw [esk7, esk5']
    refine ⟨_, h2.sk.next, ?_, ⟨?_, L7⟩, ?_, ?_, ?_⟩
    · simp only [imgCloneChild, getImg_ok hi, e, e1, e2, bind, Except.bind]
      have this3 : (h2.rcNew (.img ⟨some i, noKids, gc⟩) ((h2.sk.lab i).child s)).2 = h2.sk.next := rfl
      subst hn
      rw [getGmg_ok (h := (h2.rcNew (.img ⟨some i, noKids, gc⟩) ((h2.sk.lab i).child s)).1) (v := vg)
        (add_node_old B2 hg2)]
      rw [this3]
      simp only [e4, e5, e6, e7, pure, Except.pure]
    · rw [esk8]; exact sh
    · have x1 : Ext h2.sk (h2.sk.add n ((h2.sk.lab i).child s)) := .add B2 (by subst hn; simp [Node.kind])
      have x2 : Ext _ ((h2.sk.add n ((h2.sk.lab i).child s)).set gc (.gmg { vg with img := some h2.sk.next })) :=
        .setGmg (add_node_old B2 hg2) rfl
      have Ba : Base (h2.sk.add n ((h2.sk.lab i).child s)) := B2.add _ _ fun _ => B2.fam_data hi2 (by simp [Node.kind])
      have x3 : Ext _ (((h2.sk.add n ((h2.sk.lab i).child s)).set gc (.gmg { vg with img := some h2.sk.next })).set i
          (.img (v.setKid s h2.sk.next))) := .setImg (v := v) (by rw [← esk5']; exact hi5) rfl rfl
      have x4 := x1.trans B2 Ba x2
      have x5 := x4.trans B2 (Ba.set (n := .gmg vg) (n' := .gmg { vg with img := some h2.sk.next })
        (add_node_old B2 hg2) rfl) x3
      rw [← esk8] at x5
      have sm2 : Same h2 (h7.setNode i (.img (v.setKid s h2.sk.next))) := by
        refine ⟨x5, esl7.trans esl5, ?_, ?_, ?_⟩ <;> rw [esk8] <;> rfl
      have sm12 : Same h1 h2 := .of_eq esk2 esl2
      exact (sm1.trans g.shape.toBase G1.shape.toBase sm12).trans g.shape.toBase B2 sm2
    · rw [esk8, ← hli, ← esk2]; exact upd_same _ _ _
    · subst hn; rw [esk8]
      exact ⟨_, (set_node_ne _ _ (by omega)).trans ((set_node_ne _ _ (by omega)).trans (add_node_new _ _ _))⟩
  · obtain ⟨h1, h2, h3⟩ := g.shape.imgKid i v s c hi hc
    obtain ⟨vc, hvc⟩ := g.shape.toBase.img_of hn h2
    refine ⟨h', c, ?_, g', .of_eq e1 e2, by rw [e1, h1], ⟨vc, by rw [e1]; exact hvc⟩⟩
    simp only [imgCloneChild, getImg_ok hi, e, bind, Except.bind, pure, Except.pure]

end
end Verif.Rc
