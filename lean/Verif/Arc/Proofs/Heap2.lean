import Verif.Arc.Proofs.Heap
/-!
# New slices, new children, unique slices
-/

namespace Verif.Arc
open Verif.Spec (Side Slot Family Rng End)
open Verif.Rc
variable {α : Type}

/-- The fields of a value, without its items. -/
def bare' (v : DataV) : Reg := ⟨v.buf, v.off, 0, v.alloc⟩

theorem data_of_kind {m : Node} (h : m.kind = .data) : ∃ w, m = .data w := by
  cases m with
  | data w => exact ⟨w, rfl⟩
  | _ => cases h

theorem Evo.trans {a b c : Skel} (B : Base a) (B' : Base b) (B'' : Base c) (h1 : Evo a b) (h2 : Evo b c) : Evo a c where
  zst := h2.zst.trans h1.zst
  next := Nat.le_trans h1.next h2.next
  nfam := Nat.le_trans h1.nfam h2.nfam
  lab x h := (h2.lab x (Nat.lt_of_lt_of_le h h1.next)).trans (h1.lab x h)
  kind x h := (h2.kind x (Nat.lt_of_lt_of_le h h1.next)).trans (h1.kind x h)
  data x v n h h' := by
    cases hb : b.node x with
    | none =>
      have := h2.dead x (Nat.lt_of_lt_of_le (B.lt h) h1.next) hb
      rw [this] at h'; cases h'
    | some m =>
      obtain ⟨v1, rfl, a1, a2, a3, a4, a5⟩ := h1.data x v m h hb
      obtain ⟨v2, rfl, b1, b2, b3, b4, b5⟩ := h2.data x v1 n hb h'
      exact ⟨v2, rfl, b1.trans a1, b2.trans a2, b3.trans a3, b4.trans a4, fun s c e => b5 s c (a5 s c e)⟩
  alloc x v n h h' := by
    cases hb : b.node x with
    | none =>
      have := h2.dead x (Nat.lt_of_lt_of_le (B.lt h) h1.next) hb
      rw [this] at h'; cases h'
    | some m =>
      have := h1.alloc x v m h hb
      subst this
      exact h2.alloc x v n hb h'
  dead x h h' := h2.dead x (Nat.lt_of_lt_of_le h h1.next) (h1.dead x h h')
  link y v s c h e hc := by
    obtain ⟨w, a1, a2⟩ := h2.link y v s c h e (Nat.lt_of_lt_of_le hc h1.next)
    exact h1.link y w s c a1 a2 hc
  new x v h h' := by
    by_cases hx : x < b.next
    · cases hb : b.node x with
      | none => rw [h2.dead x hx hb] at h'; cases h'
      | some m =>
        have : ∃ w, m = .data w := data_of_kind (by
          rw [← B'.kinds _ _ hb, ← h2.kind x hx, B''.kinds _ _ h']; rfl)
        obtain ⟨w, rfl⟩ := this
        rw [h2.lab x hx]
        exact h1.new x w h hb
    · rcases h2.new x v (by omega) h' with ⟨q, w, e1, e2⟩ | e
      · by_cases hq : q < a.next
        · cases ha : a.node q with
          | none => rw [h1.dead q hq ha] at e1; cases e1
          | some m =>
            obtain ⟨u, rfl⟩ : ∃ w, m = .data w := data_of_kind (by
              rw [← B.kinds _ _ ha, ← h1.kind q hq, B'.kinds _ _ e1]; rfl)
            rw [h1.lab q hq] at e2
            exact .inl ⟨q, u, ha, e2⟩
        · rcases h1.new q w (by omega) e1 with ⟨q', w', f1, f2⟩ | f
          · exact .inl ⟨q', w', f1, Lab.up_trans f2 e2⟩
          · exact .inr (e2.1 ▸ f)
      · exact .inr (Nat.le_trans h1.nfam e)

/-- Nothing happens to nodes. -/
theorem Evo.grow {k k' : Skel} (B : Base k) (g : Grow k k') (h : k'.node = k.node) : Evo k k' where
  zst := g.zst
  next := g.next
  nfam := g.nfam
  lab := g.lab
  kind := g.kind
  data x v n h1 h2 := by
    rw [h, h1] at h2; cases h2; exact ⟨v, rfl, rfl, rfl, rfl, rfl, fun _ _ h => h⟩
  alloc x b n h1 h2 := by rw [h, h1] at h2; cases h2; rfl
  dead x _ h1 := by rw [h, h1]
  link y v s c h1 e _ := ⟨v, h ▸ h1, e⟩
  new x v h1 h2 := by rw [h, B.fresh x h1] at h2; cases h2

/-- A new node without children. -/
theorem Evo.add {k0 k : Skel} (B0 : Base k0) (B : Base k) (e : Evo k0 k) {n : Node} {l : Lab}
    (hn : n.kind = .data → (∃ q w, k0.node q = some (.data w) ∧ (k0.lab q).up l) ∨ k0.nfam ≤ l.fam)
    (hk : ∀ v s c, n = .data v → v.kids s = some c → k.next ≤ c) : Evo k0 (k.add n l) := by
  have hlt := e.next
  have key : ∀ x m, (k.add n l).node x = some m → (x = k.next ∧ m = n) ∨ k.node x = some m := by
    intro x m h
    rcases (add_iff B).1 h with ⟨rfl, e⟩ | h
    · exact .inl ⟨rfl, e⟩
    · exact .inr h
  exact {
    zst := e.zst
    next := Nat.le_succ_of_le e.next
    nfam := e.nfam
    lab := fun x h => by rw [← e.lab x h]; exact add_lab_old _ _ _ (by omega)
    kind := fun x h => by rw [← e.kind x h]; exact (Grow.add k n l).kind _ (by omega)
    data := by
      intro x v m h1 h2
      rcases key x m h2 with ⟨rfl, _⟩ | h2
      · have := B0.lt h1; omega
      · exact e.data x v m h1 h2
    alloc := by
      intro x b m h1 h2
      rcases key x m h2 with ⟨rfl, _⟩ | h2
      · have := B0.lt h1; omega
      · exact e.alloc x b m h1 h2
    dead := by
      intro x hx h1
      cases h2 : (k.add n l).node x with
      | none => rfl
      | some m =>
        rcases key x m h2 with ⟨rfl, _⟩ | h2
        · omega
        · rw [e.dead x hx h1] at h2; cases h2
    link := by
      intro y v s c h1 e' hc
      rcases key y _ h1 with ⟨rfl, e2⟩ | h2
      · have := hk v s c e2.symm e'; omega
      · exact e.link y v s c h2 e' hc
    new := by
      intro x v hx h2
      rcases key x _ h2 with ⟨rfl, rfl⟩ | h2
      · rw [add_lab_new]; exact hn rfl
      · have := B.lt h2
        rw [add_lab_old _ _ _ this]; exact e.new x v hx h2 }

/-- A fresh child is linked. -/
theorem Evo.setKid {k : Skel} {d c0 : Nat} {v : DataV} {s0 : Side} (hd : k.node d = some (.data v)) (hk : v.kids s0 = none)
    (hc : c0 + 1 = k.next) :
    ∀ {k0 : Skel}, Evo k0 k → k0.next ≤ c0 → Evo k0 (k.set d (.data (v.setKid s0 c0))) := by
  intro k0 e hlt
  have key : ∀ x n, (k.set d (.data (v.setKid s0 c0))).node x = some n → (x = d ∧ n = .data (v.setKid s0 c0)) ∨ (k.node x = some n) := by
    intro x n h
    rcases set_iff.1 h with h | h
    · exact .inl h
    · exact .inr h.2
  exact {
    zst := e.zst
    next := e.next
    nfam := e.nfam
    lab := e.lab
    kind := e.kind
    data := by
      intro x w n h1 h2
      rcases key x n h2 with ⟨rfl, rfl⟩ | h2
      · obtain ⟨v1, e0, a1, a2, a3, a4, a5⟩ := e.data x w _ h1 hd
        cases e0
        refine ⟨_, rfl, a1, a2, a3, a4, fun s c h => ?_⟩
        have := a5 s c h
        simp only [DataV.setKid]
        split
        · next e' => subst e'; rw [hk] at this; cases this
        · exact this
      · exact e.data x w n h1 h2
    alloc := by
      intro x b n h1 h2
      rcases key x n h2 with ⟨rfl, rfl⟩ | h2
      · cases e.alloc x b _ h1 hd
      · exact e.alloc x b n h1 h2
    dead := by
      intro x hx h1
      have := e.dead x hx h1
      cases h2 : (k.set d (.data (v.setKid s0 c0))).node x with
      | none => rfl
      | some m =>
        rcases key x m h2 with ⟨rfl, _⟩ | h2
        · rw [hd] at this; cases this
        · rw [this] at h2; cases h2
    link := by
      intro y w s c h1 e' hcl
      rcases key y _ h1 with ⟨rfl, h2⟩ | h2
      · cases h2
        simp only [DataV.setKid] at e'
        split at e'
        · cases e'; omega
        · exact e.link y v s c hd e' hcl
      · exact e.link y w s c h2 e' hcl
    new := by
      intro x w hx h1
      rcases key x _ h1 with ⟨rfl, _⟩ | h2
      · exact e.new x v hx hd
      · exact e.new x w hx h2 }

section
variable {h : Heap α} {T : List AT}

/-- arc_slice.rs:91-108: a new tree. -/
theorem HInv.root {r : Reg} (I : HInv h (.reg r :: T)) :
    ∃ h', ((newFam h ⟨r.buf, ⟨r.off, r.len⟩, r.alloc.isSome⟩).1.rcNew (.data ⟨r.buf, r.off, r.len, r.alloc, noKids⟩)
        ⟨h.sk.nfam, []⟩) = (h', h.sk.next) ∧
      HInv h' (.ref h.sk.next :: T) ∧ Evo h.sk h'.sk ∧ h'.slot = h.slot ∧ h'.sk.next = h.sk.next + 1 ∧
      h'.sk.lab h.sk.next = ⟨h.sk.nfam, []⟩ ∧ h'.sk.node h.sk.next = some (.data ⟨r.buf, r.off, r.len, r.alloc, noKids⟩) ∧
      h'.sk.nfam = h.sk.nfam + 1 ∧ ∀ y n, h'.sk.node y = some n → y = h.sk.next ∨ h.sk.node y = some n := by
  have g : Good h (r.alloc.toList ++ aS T) [] (r.span :: aG T) := I.good
  obtain ⟨ha, hz⟩ := I.regs r (by simp)
  have B := g.shape.toBase
  generalize hF : (Family.mk r.buf ⟨r.off, r.len⟩ r.alloc.isSome) = F
  generalize hh1 : (newFam h F).1 = h1
  have esk1 : h1.sk = h.sk.famAdd F := by subst hh1; rfl
  have sh1 : Shape h1.sk := by rw [esk1]; exact g.shape.famAdd F
  have L1 : Ledger h1 (r.alloc.toList ++ aS T) [] (r.span :: aG T) := by
    subst hh1; exact g.ledger.frame rfl rfl rfl rfl rfl
  have hfam1 : h1.sk.fams h.sk.nfam = F := by rw [esk1]; exact upd_same _ _ _
  have hnode1 : h1.sk.node = h.sk.node := by rw [esk1]; rfl
  have hlab1 : h1.sk.lab = h.sk.lab := by rw [esk1]; rfl
  have hnext1 : h1.sk.next = h.sk.next := by rw [esk1]; rfl
  have hlt1 : h.sk.nfam < h1.sk.nfam := by rw [esk1]; exact Nat.lt_succ_self _
  have hno : ∀ x n, h1.sk.node x = some n → n.kind ≠ .alloc → (h1.sk.lab x).fam ≠ h.sk.nfam := by
    intro x n hx hk
    rw [hnode1] at hx
    rw [hlab1]
    have := B.fam_data hx hk
    omega
  have B1 := sh1.toBase
  have sh2 := sh1.dataRoot (v := ⟨r.buf, r.off, r.len, r.alloc, noKids⟩) hlt1
    (fun x w hx => hno x _ hx (by simp [Node.kind])) (by rw [hfam1, ← hF]) (by rw [hfam1, ← hF])
    (by rw [hfam1, ← hF]) (by intro a h1; rw [hnode1]; exact ha a h1) (by rw [esk1]; exact hz) rfl
  have L2 : Ledger (h1.rcNew (.data ⟨r.buf, r.off, r.len, r.alloc, noKids⟩) ⟨h.sk.nfam, []⟩).1 (h1.sk.next :: aS T) [] (aG T) := by
    apply Ledger.rcNew
    refine L1.congr (.refl _) (.refl _) ?_
    intro b i
    have := (DataV.mk r.buf r.off r.len r.alloc noKids).num_halves b i
    simp only [Node.spans, DataV.ownSub, noKids, Option.isNone, if_true, owners_append, owners_cons, owners_nil]
    simp only [DataV.span] at this
    simp only [Reg.span]
    omega
  have esk2 : (h1.rcNew (.data ⟨r.buf, r.off, r.len, r.alloc, noKids⟩) ⟨h.sk.nfam, []⟩).1.sk =
      h1.sk.add (.data ⟨r.buf, r.off, r.len, r.alloc, noKids⟩) ⟨h.sk.nfam, []⟩ := rfl
  have key : ∀ y n, (h1.sk.add (.data ⟨r.buf, r.off, r.len, r.alloc, noKids⟩) ⟨h.sk.nfam, []⟩).node y = some n →
      (y = h.sk.next ∧ n = .data ⟨r.buf, r.off, r.len, r.alloc, noKids⟩) ∨ h.sk.node y = some n := by
    intro y n hy
    rcases (add_iff B1).1 hy with ⟨rfl, e⟩ | e
    · exact .inl ⟨hnext1, e⟩
    · exact .inr (hnode1 ▸ e)
  have hold : ∀ y n, h.sk.node y = some n →
      (h1.sk.add (.data ⟨r.buf, r.off, r.len, r.alloc, noKids⟩) ⟨h.sk.nfam, []⟩).node y = some n :=
    fun y n hy => add_node_old B1 (hnode1 ▸ hy)
  rw [hnext1] at L2
  refine ⟨_, by rw [← hnext1]; rfl, ⟨⟨sh2, L2⟩, ?_, ?_, ?_⟩, ?_, ?_, ?_, ?_, ?_, ?_, ?_⟩
  · intro r2 hr2
    have := I.regs r2 (by simp only [List.mem_cons, reduceCtorEq, false_or] at hr2; simp [hr2])
    refine ⟨fun a ha => ?_, fun x1 x2 => ?_⟩
    · exact hold _ _ (this.1 a ha)
    · have := this.2 x1 x2
      rw [esk2]; show h1.sk.zst = true; rw [esk1]; exact this
  · intro b i hb
    have e1 : h1.slot = h.slot := by subst hh1; rfl
    show h1.slot b i = _
    rw [e1]; refine I.bufs b i ?_
    have : h1.sk.nbuf ≤ b := hb
    rw [esk1] at this; exact this
  · intro y n hy
    rcases key y n hy with ⟨_, rfl⟩ | hy
    · exact .inl rfl
    · exact I.only y n hy
  · refine Evo.add B B1 (Evo.grow B ?_ hnode1) (fun _ => .inr (Nat.le_refl _)) ?_
    · rw [esk1]; exact .famAdd _ _
    · rintro v s c e; cases e; exact fun h => by cases h
  · subst hh1; rfl
  · show h1.sk.next + 1 = _; rw [hnext1]
  · rw [← hnext1]; exact add_lab_new _ _ _
  · rw [← hnext1]; exact add_node_new _ _ _
  · rw [esk2]; show h1.sk.nfam = _; rw [esk1]; rfl
  · intro y n hy
    rcases key y n hy with ⟨e, _⟩ | hy
    · exact .inl e
    · exact .inr hy

/-- A box enters without an allocation object. -/
theorem HInv.boxPlain (I : HInv h T) (xs : List α) (hz : xs.length = 0 ∨ h.sk.zst = true) :
    HInv (newBuf h xs).1 (.reg ⟨h.sk.nbuf, 0, xs.length, none⟩ :: T) ∧ Evo h.sk (newBuf h xs).1.sk ∧
    (newBuf h xs).1.sk.node = h.sk.node ∧ (newBuf h xs).1.sk.next = h.sk.next := by
  have hm : (!h.sk.zst && !xs.isEmpty) = false := by
    rcases hz with hz | hz
    · rw [List.length_eq_zero_iff] at hz; subst hz; simp
    · simp [hz]
  have ek : (newBuf h xs).1.sk = h.sk.bufAdd false xs.length := by simp only [newBuf, Skel.bufAdd, hm]
  have x : Evo h.sk (newBuf h xs).1.sk := by
    rw [ek]; exact .grow I.good.shape.toBase (.bufAdd _ _ _) rfl
  have g : Good (newBuf h xs).1 (aS T) [] (⟨h.sk.nbuf, 0, xs.length⟩ :: aG T) := ⟨by
    rw [ek]; exact I.good.shape.bufAdd _, I.good.ledger.newBuf I.bufs xs⟩
  refine ⟨⟨g, ?_, ?_, ?_⟩, x, rfl, rfl⟩
  · intro r hr
    rcases List.mem_cons.1 hr with e | hr
    · cases e
      refine ⟨fun a ha => (by cases ha), fun h1 _ => ?_⟩
      rw [x.zst]
      rcases hz with hz | hz
      · simp only at h1; omega
      · exact hz
    · exact I.regs r hr
  · intro b i hb
    show upd h.slot h.sk.nbuf _ b i = _
    have hb' : h.sk.nbuf + 1 ≤ b := hb
    rw [upd_ne _ _ (by omega)]; exact I.bufs b i (by omega)
  · exact I.only

/-- A box enters with an allocation object. -/
theorem HInv.boxAlloc (I : HInv h T) (xs : List α) (hl : xs.length ≠ 0) :
    HInv ((newBuf h xs).1.rcNew (.alloc h.sk.nbuf) ⟨0, []⟩).1 (.reg ⟨h.sk.nbuf, 0, xs.length, some h.sk.next⟩ :: T) ∧
    Evo h.sk ((newBuf h xs).1.rcNew (.alloc h.sk.nbuf) ⟨0, []⟩).1.sk ∧
    ((newBuf h xs).1.rcNew (.alloc h.sk.nbuf) ⟨0, []⟩).1.sk.next = h.sk.next + 1 ∧
    ∀ y n, ((newBuf h xs).1.rcNew (.alloc h.sk.nbuf) ⟨0, []⟩).1.sk.node y = some n → y = h.sk.next ∨ h.sk.node y = some n := by
  have hm : (!h.sk.zst && !xs.isEmpty) = !h.sk.zst := by
    have : xs.isEmpty = false := by cases xs <;> simp_all
    simp [this]
  have ek0 : (newBuf h xs).1.sk = h.sk.bufAdd (!h.sk.zst) xs.length := by simp only [newBuf, Skel.bufAdd, hm]
  have ek : ((newBuf h xs).1.rcNew (.alloc h.sk.nbuf) ⟨0, []⟩).1.sk =
      (h.sk.bufAdd (!h.sk.zst) xs.length).add (.alloc h.sk.nbuf) ⟨0, []⟩ := by
    rw [← ek0]; rfl
  have B0 := I.good.shape.toBase
  have B : Base (h.sk.bufAdd (!h.sk.zst) xs.length) := ⟨I.good.shape.kinds, I.good.shape.famLt, I.good.shape.fresh⟩
  have x : Evo h.sk ((newBuf h xs).1.rcNew (.alloc h.sk.nbuf) ⟨0, []⟩).1.sk := by
    rw [ek]
    exact .add B0 B (.grow B0 (.bufAdd _ _ _) rfl) (by simp [Node.kind]) (by intro v s c e; cases e)
  have key : ∀ y n, ((h.sk.bufAdd (!h.sk.zst) xs.length).add (.alloc h.sk.nbuf) ⟨0, []⟩).node y = some n →
      (y = h.sk.next ∧ n = .alloc h.sk.nbuf) ∨ h.sk.node y = some n := by
    intro y n hy
    exact (add_iff B).1 hy
  have L := Ledger.rcNew (n := .alloc h.sk.nbuf) (S := aS T) (W := []) (G := ⟨h.sk.nbuf, 0, xs.length⟩ :: aG T)
    (I.good.ledger.newBuf I.bufs xs) ⟨0, []⟩
  have g : Good ((newBuf h xs).1.rcNew (.alloc h.sk.nbuf) ⟨0, []⟩).1 (h.sk.next :: aS T) [] (⟨h.sk.nbuf, 0, xs.length⟩ :: aG T) :=
    ⟨by rw [ek]; exact I.good.shape.bufAlloc _, L⟩
  refine ⟨⟨g, ?_, ?_, ?_⟩, x, rfl, ?_⟩
  · intro r hr
    rcases List.mem_cons.1 hr with e | hr
    · cases e
      refine ⟨fun a ha => ?_, fun h1 h2 => (by cases h2)⟩
      cases ha
      rw [ek]; exact add_node_new _ _ _
    · exact (I.regs r hr).evo x fun a ha => g.ledger.node_of_pos (g.ledger.pos_of_tok (List.mem_cons_of_mem _ (mem_aS hr (by simp [ha]))))
  · intro b i hb
    show upd h.slot h.sk.nbuf _ b i = _
    have hb' : h.sk.nbuf + 1 ≤ b := hb
    rw [upd_ne _ _ (by omega)]; exact I.bufs b i (by omega)
  · intro y n hy
    rcases key y n (ek ▸ hy) with ⟨_, rfl⟩ | hy
    · exact .inr rfl
    · exact I.only y n hy
  · intro y n hy
    rcases key y n (ek ▸ hy) with ⟨e, _⟩ | hy
    · exact .inl e
    · exact .inr hy

/-- arc_slice.rs:141-145: a new child is published. -/
theorem HInv.child {d : Nat} {v : DataV} {s : Side} (I : HInv h (.reg (bare' (v.kid s)) :: T)) (hd : h.sk.node d = some (.data v))
    (hk : v.kids s = none) :
    ∃ h', ((h.rcNew (.data (v.kid s)) ((h.sk.lab d).child s)).1.incS h.sk.next).map
        (fun h1 => h1.setNode d (.data (v.setKid s h.sk.next))) = .ok h' ∧
      HInv h' (.ref h.sk.next :: T) ∧ Evo h.sk h'.sk ∧ h'.slot = h.slot ∧ h'.sk.next = h.sk.next + 1 ∧
      h'.sk.lab h.sk.next = (h.sk.lab d).child s ∧ h'.sk.node h.sk.next = some (.data (v.kid s)) ∧
      h'.sk.node d = some (.data (v.setKid s h.sk.next)) ∧
      (∀ y n, h'.sk.node y = some n → y = h.sk.next ∨ y = d ∨ h.sk.node y = some n) := by
  have hlt := I.good.ledger.lt hd
  have hne : d ≠ h.sk.next := by omega
  have B := I.good.shape.toBase
  have sh := I.good.shape.dataChild hd hk
  have hnew : ((h.rcNew (.data (v.kid s)) ((h.sk.lab d).child s)).1.setNode d (.data (v.setKid s h.sk.next))).sk.node
      h.sk.next = some (.data (v.kid s)) := by
    show upd (upd _ _ _) d _ _ = _
    rw [upd_ne _ _ (by omega), upd_same]
  have L0 : Ledger h ((v.kid s).alloc.toList ++ aS T) [] (⟨(v.kid s).buf, (v.kid s).off, 0⟩ :: aG T) := I.good.ledger
  have L1 : Ledger ((h.rcNew (.data (v.kid s)) ((h.sk.lab d).child s)).1.setNode d (.data (v.setKid s h.sk.next)))
      (aS T) [] (aG T) := by
    refine L0.rcNewSet hd ?_ ?_ ?_
    · intro y
      rw [show (Node.data (v.kid s)).srefs = (v.kid s).alloc.toList by simp [Node.srefs, DataV.kid, noKids]]
      simp only [List.count_append]
      have : (Node.data (v.setKid s h.sk.next)).srefs.count y = (Node.data v).srefs.count y +
          if y = h.sk.next then 1 else 0 := by
        cases s <;> simp only [Node.srefs, DataV.setKid, List.count_append, if_true, hk, reduceCtorEq, if_false,
          Option.toList, List.count_nil, List.count_singleton, beq_iff_eq, eq_comm (a := h.sk.next)] <;> omega
      rw [this]; omega
    · intro y; simp [Node.wrefs]
    · intro b i
      have h2 : owners (Node.data (v.kid s)).spans b i = (v.sub s).num b i := by
        have := (v.kid s).num_halves b i
        simp only [Node.spans, DataV.ownSub, DataV.kid, noKids, Option.isNone, if_true, owners_append, owners_cons,
          owners_nil]
        simpa [DataV.kid, DataV.span, DataV.sub] using this
      have h3 : owners (Node.data v).spans b i = owners (Node.data (v.setKid s h.sk.next)).spans b i + (v.sub s).num b i := by
        cases s <;> simp only [Node.spans, DataV.ownSub, DataV.setKid, if_true, hk, reduceCtorEq, if_false,
          Option.isNone, owners_append, owners_cons, owners_nil] <;> simp [DataV.sub, DataV.subLen, DataV.subOff] <;> omega
      simp only [owners_cons, num_empty]
      omega
  have G1 : Good _ _ _ _ := ⟨sh, L1⟩
  have hpos := L1.strong_pos hnew
  obtain ⟨h', e', g', e1', e2'⟩ := G1.incS hpos
  have hs1 : (h.rcNew (.data (v.kid s)) ((h.sk.lab d).child s)).1.strong h.sk.next = 1 := upd_same _ _ _
  have hd1 : (h.sk.add (.data (v.kid s)) ((h.sk.lab d).child s)).node d = some (.data v) := add_node_old B hd
  have key : ∀ y n, h'.sk.node y = some n →
      (y = h.sk.next ∧ n = .data (v.kid s)) ∨ (y = d ∧ n = .data (v.setKid s h.sk.next)) ∨ h.sk.node y = some n := by
    intro y n hy
    rw [e1'] at hy
    rcases set_iff.1 hy with hy | ⟨_, hy⟩
    · exact .inr (.inl hy)
    · rcases (add_iff B).1 hy with hy | hy
      · exact .inl hy
      · exact .inr (.inr hy)
  have x : Evo h.sk h'.sk := by
    rw [e1']
    refine Evo.setKid (k := h.sk.add (.data (v.kid s)) ((h.sk.lab d).child s)) hd1 hk rfl (.add B B (.refl B) ?_ ?_) (Nat.le_refl _)
    · exact fun _ => .inl ⟨d, v, hd, Lab.up_child _ _⟩
    · intro w t c e; cases e; exact fun h => by cases h
  have g2 : Good h' (aS (.ref h.sk.next :: T)) [] (aG (.ref h.sk.next :: T)) := g'
  refine ⟨h', ?_, ⟨g2, ?_, ?_, ?_⟩, x, e2', by rw [e1']; rfl, ?_, by rw [e1']; exact hnew, ?_, ?_⟩
  · rw [← e']
    have hs2 : ((h.rcNew (.data (v.kid s)) ((h.sk.lab d).child s)).1.setNode d (.data (v.setKid s h.sk.next))).strong h.sk.next = 1 := hs1
    simp only [Heap.incS, hs1, hs2]
    rfl
  · intro r hr
    have hr' : .reg r ∈ T := by simpa using hr
    refine regs_evo (T := .reg (bare' (v.kid s)) :: T) I x g2 (List.mem_cons_of_mem _ hr') hr
  · intro b i hb
    rw [e2']
    rw [e1'] at hb
    exact I.bufs b i hb
  · intro y n hy
    rcases key y n hy with ⟨_, rfl⟩ | ⟨_, rfl⟩ | hy
    · exact .inl rfl
    · exact .inl rfl
    · exact I.only y n hy
  · rw [e1']; exact upd_same _ _ _
  · rw [e1']; exact upd_same _ _ _
  · intro y n hy
    rcases key y n hy with h | h | h
    · exact .inl h.1
    · exact .inr (.inl h.1)
    · exact .inr (.inr h)

/-- arc_slice.rs:207-218: the only reference to a value is unwrapped. -/
theorem HInv.kill {x : Nat} {v : DataV} (I : HInv h (.ref x :: T)) (hx : h.sk.node x = some (.data v)) (h1 : h.strong x = 1) :
    HInv (h.kill x) ((v.kids .L).toList.map .ref ++ ((v.kids .R).toList.map .ref ++
      (.reg (bare' v) :: ((Node.data v).spans.map .own ++ T)))) := by
  have g : Good h (x :: aS T) [] (aG T) := I.good
  refine ⟨?_, ?_, I.bufs, fun y m hy => I.only y m (upd_none_some hy).2⟩
  · have g1 := g.kill hx (by simp [Node.kind]) h1
    refine g1.perm ?_ (.refl _) ?_
    · simp [Node.srefs, bare']
    · intro b i
      simp [bare', Reg.span, owners_append, num_empty]
  · intro r hm
    have hm' : r = bare' v ∨ .reg r ∈ T := by
      simp only [List.mem_append, List.mem_map, reduceCtorEq, and_false, exists_false, false_or, List.mem_cons, AT.reg.injEq] at hm
      exact hm
    rcases hm' with rfl | hm'
    · refine ⟨fun a ha => ?_, fun h2 h3 => by simp only [bare'] at h2; omega⟩
      have := g.shape.dataAlloc x v a hx ha
      show upd h.sk.node x none a = _
      rw [upd_ne _ _ (by rintro rfl; rw [hx] at this; cases this)]; exact this
    · have := I.regs r (by simp [hm'])
      refine ⟨fun a ha => ?_, this.2⟩
      show upd h.sk.node x none a = _
      rw [upd_ne _ _ (by rintro rfl; exact g.ledger.no_tok h1 (mem_aS hm' (by simp [ha])))]; exact this.1 a ha

/-- Items come together with the allocation reference. -/
theorem HInv.join {r : Reg} {acc : List Span} (I : HInv h (.reg { r with len := 0 } :: (acc.map .own ++ T)))
    (hz : 0 < r.len → r.alloc = none → h.sk.zst = true) (ha : ∀ b i, owners acc b i = r.span.num b i) : HInv h (.reg r :: T) := by
  refine I.congr ?_ ?_ ?_
  · simp
  · intro b i
    have := ha b i
    simp only [aG_cons, AT.G, aG_append, aG_own, owners_append, owners_cons, owners_nil, Reg.span, num_empty] at this ⊢
    omega
  · intro r2 hr
    rcases List.mem_cons.1 hr with e | hr
    · cases e
      exact .inr ⟨(I.regs _ (List.mem_cons_self ..)).1, hz⟩
    · exact .inl (List.mem_cons_of_mem _ (List.mem_append_right _ hr))

/-- Cutting a range of items in two. -/
theorem HInv.cut {r r1 r2 : Reg} {h' : Heap α} (I : HInv h (.reg r :: T))
    (hb1 : r1.buf = r.buf) (hb2 : r2.buf = r.buf)
    (hsp : ∀ b j, r1.span.num b j + r2.span.num b j = r.span.num b j)
    (hz1 : 0 < r1.len → 0 < r.len ∧ r1.alloc = r.alloc) (hz2 : 0 < r2.len → 0 < r.len ∧ r2.alloc = r.alloc)
    (ha1 : ∀ a, r1.alloc = some a → r.alloc = some a) (ha2 : ∀ a, r2.alloc = some a → r.alloc = some a)
    (hg : Good h' (r1.alloc.toList ++ (r2.alloc.toList ++ aS T)) [] (r.span :: aG T)) (hk : h'.sk = h.sk)
    (hs : h'.slot = h.slot) : HInv h' (.reg r1 :: .reg r2 :: T) := by
  obtain ⟨a1, a2⟩ := I.regs _ (List.mem_cons_self ..)
  refine ⟨hg.perm (.refl _) (.refl _) ?_, ?_, ?_, ?_⟩
  · intro b j
    simp only [aG_cons, AT.G, owners_cons, owners_append, owners_nil]
    have := hsp b j; omega
  · intro r3 ht
    rw [hk]
    rcases List.mem_cons.1 ht with e | ht
    · cases e
      refine ⟨fun a ha => by rw [hb1]; exact a1 a (ha1 a ha), fun h1 h2 => ?_⟩
      obtain ⟨b1, b2⟩ := hz1 h1
      exact a2 b1 (b2 ▸ h2)
    · rcases List.mem_cons.1 ht with e | ht
      · cases e
        refine ⟨fun a ha => by rw [hb2]; exact a1 a (ha2 a ha), fun h1 h2 => ?_⟩
        obtain ⟨b1, b2⟩ := hz2 h1
        exact a2 b1 (b2 ▸ h2)
      · exact I.regs _ (List.mem_cons_of_mem _ ht)
  · rw [hk, hs]; exact I.bufs
  · rw [hk]; exact I.only

/-- arc_slice_mut.rs:61-71. -/
theorem HInv.split {r : Reg} (I : HInv h (.reg r :: T)) (s : Side) :
    ∃ h' r1 r2, regSplitOff h r s = .ok (h', r1, r2) ∧ HInv h' (.reg r1 :: .reg r2 :: T) ∧ h'.sk = h.sk ∧ h'.slot = h.slot ∧
      r1.buf = r.buf ∧ r2.buf = r.buf ∧ (⟨r1.off, r1.len⟩, ⟨r2.off, r2.len⟩) = (Rng.mk r.off r.len).split s := by
  have hle : r.len >>> 1 ≤ r.len := by rw [Nat.shiftRight_eq_div_pow]; omega
  have hsh : r.len >>> 1 = r.len / 2 := by rw [Nat.shiftRight_eq_div_pow]
  have hsp := fun x j => num_split' r.buf r.off (r.len >>> 1) r.len x j hle
  have hincr : ∀ n : Nat, ∀ a, (if n > 0 then r.alloc else none) = some a → r.alloc = some a := by
    intro n a h; split at h
    · exact h
    · cases h
  have g0 : Good h (r.alloc.toList ++ aS T) [] (r.span :: aG T) := I.good
  have hinc : ∀ o, (∀ a, o = some a → r.alloc = some a) → ∃ h', h.incSOpt o = .ok h' ∧
      Good h' (o.toList ++ (r.alloc.toList ++ aS T)) [] (r.span :: aG T) ∧ h'.sk = h.sk ∧ h'.slot = h.slot := by
    intro o ho
    exact g0.incSOpt (o := o) fun a ha => g0.ledger.strong_pos ((I.regs _ (List.mem_cons_self ..)).1 a (ho a ha))
  cases s with
  | L =>
    obtain ⟨h', e, g, ek, es⟩ := hinc (if r.len >>> 1 > 0 then r.alloc else none) (hincr _)
    refine ⟨h', ⟨r.buf, r.off, r.len >>> 1, if r.len >>> 1 > 0 then r.alloc else none⟩,
      ⟨r.buf, r.off + r.len >>> 1, r.len - r.len >>> 1, r.alloc⟩, ?_, ?_, ek, es, rfl, rfl, ?_⟩
    · simp only [regSplitOff, e, bind, Except.bind]; rfl
    · refine I.cut rfl rfl hsp (fun h => ⟨by simp only at h; omega, ?_⟩) (fun h => ⟨by simp only at h; omega, rfl⟩)
        (hincr _) (fun a h => h) g ek es
      simp only at h; simp only; rw [if_pos h]
    · simp only [Rng.split, Rng.left, Rng.right, hsh]
  | R =>
    obtain ⟨h', e, g, ek, es⟩ := hinc (if r.len - r.len >>> 1 > 0 then r.alloc else none) (hincr _)
    refine ⟨h', ⟨r.buf, r.off + r.len >>> 1, r.len - r.len >>> 1, if r.len - r.len >>> 1 > 0 then r.alloc else none⟩,
      ⟨r.buf, r.off, r.len >>> 1, r.alloc⟩, ?_, ?_, ek, es, rfl, rfl, ?_⟩
    · simp only [regSplitOff, e, bind, Except.bind]; rfl
    · refine I.cut rfl rfl (fun x j => by rw [Nat.add_comm]; exact hsp x j) (fun h => ⟨by simp only at h; omega, ?_⟩)
        (fun h => ⟨by simp only at h; omega, rfl⟩) (hincr _) (fun a h => h) g ek es
      simp only at h; simp only; rw [if_pos h]
    · simp only [Rng.split, Rng.left, Rng.right, hsh]

/-- arc_slice_mut.rs:160-168, 172-180, 231-237, 249-255: the allocation references after items
were cut off. -/
theorem HInv.iterSplit {r r1 r2 : Reg} (I : HInv h (.reg r :: T)) (hb1 : r1.buf = r.buf) (hb2 : r2.buf = r.buf) (ha : r2.alloc = r.alloc)
    (hsp : ∀ b j, r1.span.num b j + r2.span.num b j = r.span.num b j) (hl1 : r1.len ≤ r.len) (hl2 : r2.len ≤ r.len) :
    ∃ h' a b, Rc.iterSplit h r1 r2 = .ok (h', { r1 with alloc := a }, { r2 with alloc := b }) ∧
      HInv h' (.reg { r1 with alloc := a } :: .reg { r2 with alloc := b } :: T) ∧ h'.sk = h.sk ∧ h'.slot = h.slot ∧
      (a.isSome, b.isSome) = Spec.World.splitHolds r.alloc.isSome r1.len r2.len := by
  have g0 : Good h (r.alloc.toList ++ aS T) [] (r.span :: aG T) := I.good
  have key : ∀ {h' : Heap α} {a b : Option Nat}, splitAlloc h r.alloc r2.len r1.len = .ok (h', a, b) →
      Rc.iterSplit h r1 r2 = .ok (h', { r1 with alloc := a }, { r2 with alloc := b }) := by
    intro h' a b e
    simp only [Rc.iterSplit, ha, e]; rfl
  by_cases h1 : r2.len = 0
  · refine ⟨h, r.alloc, none, key (by simp only [splitAlloc]; rw [if_pos h1]), ?_, rfl, rfl, ?_⟩
    · refine I.cut hb1 hb2 hsp (fun h => ⟨by simp only at h; omega, rfl⟩) (fun h => by simp only at h; omega)
        (fun a h => h) (fun a h => by cases h) ?_ rfl rfl
      simpa using g0
    · simp [Spec.World.splitHolds, h1]
  · by_cases h2 : 0 < r1.len
    · obtain ⟨h', e, g, ek, es⟩ := g0.incSOpt (o := r.alloc) fun a ha =>
        g0.ledger.strong_pos ((I.regs _ (List.mem_cons_self ..)).1 a ha)
      refine ⟨h', r.alloc, r.alloc, key (by simp only [splitAlloc]; rw [if_neg h1, if_pos h2, e]; rfl), ?_, ek, es, ?_⟩
      · exact I.cut hb1 hb2 hsp (fun h => ⟨by omega, rfl⟩) (fun h => ⟨by omega, rfl⟩)
          (fun a h => h) (fun a h => h) g ek es
      · simp only [Spec.World.splitHolds]; rw [if_neg h1, if_neg (by omega)]
    · refine ⟨h, none, r.alloc, key (by simp only [splitAlloc]; rw [if_neg h1, if_neg h2]), ?_, rfl, rfl, ?_⟩
      · refine I.cut hb1 hb2 hsp (fun h => absurd h h2) (fun h => ⟨by simp only at h; omega, rfl⟩)
          (fun a h => by cases h) (fun a h => h) ?_ rfl rfl
        simpa using g0
      · simp only [Spec.World.splitHolds]; rw [if_neg h1, if_pos (by omega)]; rfl

/-- `split_off_to`. -/
theorem HInv.cutF {r : Reg} {n : Nat} (I : HInv h (.reg r :: T)) (hn : n ≤ r.len) :
    ∃ h' a b, Rc.iterSplit h { r with len := n } { r with off := r.off + n, len := r.len - n } =
        .ok (h', ⟨r.buf, r.off, n, a⟩, ⟨r.buf, r.off + n, r.len - n, b⟩) ∧
      HInv h' (.reg ⟨r.buf, r.off, n, a⟩ :: .reg ⟨r.buf, r.off + n, r.len - n, b⟩ :: T) ∧ h'.sk = h.sk ∧ h'.slot = h.slot ∧
      (a.isSome, b.isSome) = Spec.World.splitHolds r.alloc.isSome n (r.len - n) :=
  I.iterSplit (r1 := { r with len := n }) (r2 := { r with off := r.off + n, len := r.len - n }) rfl rfl rfl
    (fun x j => num_split' r.buf r.off n r.len x j hn) hn (Nat.sub_le ..)

/-- `split_off_from`. -/
theorem HInv.cutB {r : Reg} {n : Nat} (I : HInv h (.reg r :: T)) (hn : n ≤ r.len) :
    ∃ h' a b, Rc.iterSplit h { r with off := r.off + n, len := r.len - n } { r with len := n } =
        .ok (h', ⟨r.buf, r.off + n, r.len - n, a⟩, ⟨r.buf, r.off, n, b⟩) ∧
      HInv h' (.reg ⟨r.buf, r.off + n, r.len - n, a⟩ :: .reg ⟨r.buf, r.off, n, b⟩ :: T) ∧ h'.sk = h.sk ∧ h'.slot = h.slot ∧
      (a.isSome, b.isSome) = Spec.World.splitHolds r.alloc.isSome (r.len - n) n :=
  I.iterSplit (r1 := { r with off := r.off + n, len := r.len - n }) (r2 := { r with len := n }) rfl rfl rfl
    (fun x j => by rw [Nat.add_comm]; exact num_split' r.buf r.off n r.len x j hn) (Nat.sub_le ..) hn

/-- Giving up the allocation reference of a range that has no items. -/
theorem HInv.letGo {r : Reg} (I : HInv h (.reg r :: T)) (hl : r.len = 0) :
    HInv h (r.alloc.toList.map .ref ++ (.reg { r with alloc := none } :: T)) := by
  refine I.congr ?_ ?_ ?_
  · simp
  · intro b i; simp [Reg.span]
  · intro r2 hr
    simp only [List.mem_append, List.mem_map, reduceCtorEq, and_false, exists_false, false_or, List.mem_cons, AT.reg.injEq] at hr
    rcases hr with rfl | hr
    · exact .inr ⟨fun a ha => (by cases ha), fun h1 _ => (by simp only at h1; omega)⟩
    · exact .inl (List.mem_cons_of_mem _ hr)

/-- arc_slice_mut.rs: `next`, `next_back`. -/
theorem HInv.iterNext {r : Reg} (I : HInv h (.reg r :: T)) (en : End) :
    ∃ h' o r' ts, iterNext h r en = .ok (h', o, r', ts) ∧ HInv h' (ts.flatMap taskT ++ (.reg r' :: T)) ∧ h'.sk = h.sk ∧
      (∀ t ∈ ts, ∃ a, t = .dropS a ∧ h.sk.kind a = .alloc) ∧
      (∀ b i, h'.slot b i ≠ h.slot b i → b = r.buf ∧ r.off ≤ i ∧ i < r.off + r.len) ∧
      r'.buf = r.buf ∧ r'.len = r.len - 1 ∧ r.off ≤ r'.off ∧ r'.off + r'.len ≤ r.off + r.len := by
  have hk : ∀ a, r.alloc = some a → h.sk.kind a = .alloc := fun a ha =>
    I.good.shape.kinds _ _ ((I.regs r (List.mem_cons_self ..)).1 a ha)
  have hts : ∀ t ∈ r.alloc.toList.map Task.dropS, ∃ a, t = .dropS a ∧ h.sk.kind a = .alloc := by
    intro t ht
    obtain ⟨a, h1, rfl⟩ := List.mem_map.1 ht
    exact ⟨a, rfl, hk a (by simpa using h1)⟩
  by_cases hl : r.len = 0
  · refine ⟨h, none, { r with alloc := none }, r.alloc.toList.map .dropS, ?_, ?_, rfl, hts, fun b i hne => absurd rfl hne, rfl,
      by simp only; omega, Nat.le_refl _, Nat.le_refl _⟩
    · simp only [Rc.iterNext]; rw [if_pos hl]
    · rw [flatMap_dropS]; exact I.letGo hl
  · have hacc := I.accessible (List.mem_cons_self ..) (by omega)
    cases en with
    | front =>
      obtain ⟨a, ha⟩ := I.reg_live (List.mem_cons_self ..) (i := r.off) (Nat.le_refl _) (by omega)
      have I1 := I.takeItem (r' := { r with off := r.off + 1, len := r.len - 1 }) (i := r.off) (s := .moved) rfl (Nat.le_refl _)
        (by omega) rfl rfl (Nat.sub_le _ _) (by
          intro b j
          simp only [Reg.span, Span.num]
          grind)
      have hslot : ∀ b i, (h.setSlot r.buf r.off .moved).slot b i ≠ h.slot b i → b = r.buf ∧ r.off ≤ i ∧ i < r.off + r.len := by
        intro b i hne
        rw [setSlot_slot] at hne
        split at hne
        · next e => obtain ⟨rfl, rfl⟩ := e; exact ⟨rfl, Nat.le_refl _, by omega⟩
        · exact absurd rfl hne
      by_cases hr : r.len - 1 = 0
      · refine ⟨h.setSlot r.buf r.off .moved, some a, ⟨r.buf, r.off + 1, r.len - 1, none⟩, r.alloc.toList.map .dropS, ?_, ?_, rfl,
          hts, hslot, rfl, rfl, by simp only; omega, by simp only; omega⟩
        · simp only [Rc.iterNext, hacc, ha]; rw [if_neg hl]; simp [hr]
        · rw [flatMap_dropS]; exact I1.letGo hr
      · refine ⟨h.setSlot r.buf r.off .moved, some a, ⟨r.buf, r.off + 1, r.len - 1, r.alloc⟩, [], ?_, I1, rfl,
          by simp, hslot, rfl, rfl, by simp only; omega, by simp only; omega⟩
        simp only [Rc.iterNext, hacc, ha]; rw [if_neg hl]; simp [hr]
    | back =>
      obtain ⟨a, ha⟩ := I.reg_live (List.mem_cons_self ..) (i := r.off + r.len - 1) (by omega) (by omega)
      have I1 := I.takeItem (r' := { r with len := r.len - 1 }) (i := r.off + r.len - 1) (s := .moved) rfl (by omega)
        (by omega) rfl rfl (Nat.sub_le _ _) (by
          intro b j
          simp only [Reg.span, Span.num]
          grind)
      have hslot : ∀ b i, (h.setSlot r.buf (r.off + r.len - 1) .moved).slot b i ≠ h.slot b i →
          b = r.buf ∧ r.off ≤ i ∧ i < r.off + r.len := by
        intro b i hne
        rw [setSlot_slot] at hne
        split at hne
        · next e => obtain ⟨rfl, rfl⟩ := e; exact ⟨rfl, by omega, by omega⟩
        · exact absurd rfl hne
      by_cases hr : r.len - 1 = 0
      · refine ⟨h.setSlot r.buf (r.off + r.len - 1) .moved, some a, ⟨r.buf, r.off, r.len - 1, none⟩, r.alloc.toList.map .dropS, ?_, ?_,
          rfl, hts, hslot, rfl, rfl, by simp only; omega, by simp only; omega⟩
        · simp only [Rc.iterNext, hacc, ha]; rw [if_neg hl]; simp [hr]
        · rw [flatMap_dropS]; exact I1.letGo hr
      · refine ⟨h.setSlot r.buf (r.off + r.len - 1) .moved, some a, ⟨r.buf, r.off, r.len - 1, r.alloc⟩, [], ?_, I1, rfl,
          by simp, hslot, rfl, rfl, by simp only; omega, by simp only; omega⟩
        simp only [Rc.iterNext, hacc, ha]; rw [if_neg hl]; simp [hr]

/-- A user overwrites an item. -/
theorem HInv.write (I : HInv h T) {b i : Nat} {a a' : α} (hs : h.slot b i = .live a) : HInv (h.setSlot b i (.live a')) T := by
  refine ⟨⟨I.good.shape, I.good.ledger.setSlot (fun _ _ _ => rfl) (by rw [hs]; rfl)⟩, I.regs, ?_, I.only⟩
  intro b' i' hb
  rw [setSlot_slot]
  have := I.bufs b' i' hb
  split
  · rename_i e; obtain ⟨rfl, rfl⟩ := e
    rw [hs] at this; cases this
  · exact this

end
end Verif.Arc
