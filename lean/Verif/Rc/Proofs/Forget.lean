import Verif.Rc.Proofs.Inv
/-!
# `into_mut`
-/

namespace Verif.Rc
open Verif.Spec (Side Slot Family Rng)
variable {α : Type}

theorem Good.kill {h : Heap α} {S W : List Nat} {G : List Span} {x : Nat} (g : Good h (x :: S) W G) {n : Node}
    (hx : h.sk.node x = some n) (ha : n.kind ≠ .alloc) (h1 : h.strong x = 1) :
    Good (h.kill x) (n.srefs ++ S) (n.wrefs ++ W) (n.spans ++ G) :=
  ⟨g.shape.kill hx ha fun _ _ hy => g.ledger.no_ref h1 hy, g.ledger.kill hx h1⟩

/-- Slice data with labels in `P` is gone, nothing else changed. -/
structure Pruned (P : Lab → Prop) (h h' : Heap α) : Prop where
  sk : h'.sk = { h.sk with node := h'.sk.node }
  slot : h'.slot = h.slot
  sub : ∀ y m, h'.sk.node y = some m → h.sk.node y = some m
  keep : ∀ y m, h.sk.node y = some m → h'.sk.node y = some m ∨ (m.kind = .data ∧ P (h.sk.lab y))
  gone : ∀ y w, h'.sk.node y = some (.data w) → ¬ P (h.sk.lab y)
  strong : ∀ y, h'.strong y ≤ h.strong y

theorem Pruned.lab {P : Lab → Prop} {h h' : Heap α} (p : Pruned P h h') : h'.sk.lab = h.sk.lab := by rw [p.sk]
theorem Pruned.kind {P : Lab → Prop} {h h' : Heap α} (p : Pruned P h h') : h'.sk.kind = h.sk.kind := by rw [p.sk]
theorem Pruned.fams {P : Lab → Prop} {h h' : Heap α} (p : Pruned P h h') : h'.sk.fams = h.sk.fams := by rw [p.sk]
theorem Pruned.next {P : Lab → Prop} {h h' : Heap α} (p : Pruned P h h') : h'.sk.next = h.sk.next := by rw [p.sk]
theorem Pruned.zst {P : Lab → Prop} {h h' : Heap α} (p : Pruned P h h') : h'.sk.zst = h.sk.zst := by rw [p.sk]
theorem Pruned.nbuf {P : Lab → Prop} {h h' : Heap α} (p : Pruned P h h') : h'.sk.nbuf = h.sk.nbuf := by rw [p.sk]
theorem Pruned.mem {P : Lab → Prop} {h h' : Heap α} (p : Pruned P h h') : h'.sk.mem = h.sk.mem := by rw [p.sk]
theorem Pruned.nfam {P : Lab → Prop} {h h' : Heap α} (p : Pruned P h h') : h'.sk.nfam = h.sk.nfam := by rw [p.sk]
theorem Pruned.blen {P : Lab → Prop} {h h' : Heap α} (p : Pruned P h h') : h'.sk.blen = h.sk.blen := by rw [p.sk]

theorem Pruned.trans {P Q R : Lab → Prop} {a b c : Heap α} (h1 : Pruned P a b) (h2 : Pruned Q b c)
    (hR : ∀ l, R l ↔ P l ∨ Q l) : Pruned R a c where
  sk := by rw [h2.sk, h1.sk]
  slot := h2.slot.trans h1.slot
  sub y m h := h1.sub y m (h2.sub y m h)
  keep y m h := by
    rcases h1.keep y m h with h | ⟨h, h'⟩
    · rcases h2.keep y m h with h | ⟨h, h'⟩
      · exact .inl h
      · rw [h1.lab] at h'; exact .inr ⟨h, (hR _).2 (.inr h')⟩
    · exact .inr ⟨h, (hR _).2 (.inl h')⟩
  gone y w h := by
    have a1 := h1.gone y w (h2.sub y _ h)
    have a2 := h2.gone y w h
    rw [h1.lab] at a2; rw [hR]; exact fun e => e.elim a1 a2
  strong y := Nat.le_trans (h2.strong y) (h1.strong y)

/-- Only counts went down. -/
theorem Pruned.of_eq {P : Lab → Prop} {a b c : Heap α} (h1 : Pruned P a b) (e : c.sk = b.sk) (es : c.slot = b.slot)
    (hs : ∀ y, c.strong y ≤ b.strong y) : Pruned P a c where
  sk := by rw [e]; exact h1.sk
  slot := es.trans h1.slot
  sub := by rw [e]; exact h1.sub
  keep := by rw [e]; exact h1.keep
  gone := by rw [e]; exact h1.gone
  strong y := Nat.le_trans (hs y) (h1.strong y)

/-- The value belongs at the label. -/
structure VOK (k : Skel) (l : Lab) (v : DataV) : Prop where
  buf : v.buf = (k.fams l.fam).buf
  rng : Rng.mk v.off v.len = (k.fams l.fam).rng.at l.path
  hold : v.alloc.isSome = ((k.fams l.fam).holds && (l.path.isEmpty || decide (0 < v.len)))
  alloc : ∀ a, v.alloc = some a → k.node a = some (.alloc v.buf)

theorem Shape.vok {k : Skel} (S : Shape k) {x : Nat} {v : DataV} (hx : k.node x = some (.data v)) : VOK k (k.lab x) v :=
  ⟨(S.dataFam x v hx).1, (S.dataFam x v hx).2.1, (S.dataFam x v hx).2.2, fun a h => S.dataAlloc x v a hx h⟩

def DataV.kidSpan (v : DataV) (s : Side) : List Span := if (v.kids s).isNone then [] else [v.sub s]

theorem DataV.own_kid (v : DataV) (b i : Nat) :
    owners (v.kidSpan .L) b i + owners (v.kidSpan .R) b i + owners (Node.data v).spans b i = v.span.num b i := by
  rw [← v.num_halves]
  simp only [Node.spans, DataV.kidSpan, DataV.ownSub, owners_append]
  cases v.kids .L <;> cases v.kids .R <;> simp <;> omega

/-- A child's span and allocation are its parent's. -/
theorem VOK.kid {k : Skel} {l : Lab} {s : Side} {v w : DataV} (A : AShape k) (hv : VOK k l v) (hw : VOK k (l.child s) w) :
    w.span = v.sub s ∧ ∀ a, w.alloc = some a → v.alloc = some a := by
  have e1 := hw.rng
  have eb : w.buf = v.buf := hw.buf.trans hv.buf.symm
  have e2 : Rng.mk w.off w.len = (Rng.mk v.off v.len).half s := by
    rw [e1, hv.rng]; rfl
  rw [← DataV.sub_rng] at e2
  injection e2 with e3 e4
  refine ⟨by simp only [DataV.span, DataV.sub]; rw [eb, e3, e4], ?_⟩
  intro a ha
  have h1 := hw.hold
  rw [ha] at h1
  simp only [Option.isSome_some, Lab.child, List.isEmpty_cons, Bool.false_or] at h1
  have h2 : (k.fams l.fam).holds = true ∧ 0 < w.len := by
    have := h1.symm
    simpa using this
  have h3 := v.subLen_le s
  have h4 : v.alloc.isSome = true := by
    rw [hv.hold, h2.1]
    have : 0 < v.len := by omega
    simp [this]
  obtain ⟨a', h5⟩ := Option.isSome_iff_exists.1 h4
  have h6 := hv.alloc a' h5
  have h7 := hw.alloc a ha
  rw [eb] at h7
  rw [h5, A.allocUniq _ _ _ h6 h7]

/-- Conditions on the children of a value taken out of its `Rc`. -/
structure KidOK (h : Heap α) (l : Lab) (x : Nat) (v : DataV) (s : Side) : Prop where
  kid : ∀ c, v.kids s = some c → x < c ∧ h.sk.lab c = l.child s ∧ ∃ vc, h.sk.node c = some (.data vc)
  down : ∀ y w, h.sk.node y = some (.data w) → (l.child s).up (h.sk.lab y) → (v.kids s).isSome
  excl : ∀ y w, h.sk.node y = some (.data w) → (l.child s).up (h.sk.lab y) → h.strong y = 1

/-- What `forgetItems` achieves. -/
def ForgetSpec (α : Type) (fuel : Nat) : Prop :=
  ∀ (h : Heap α) (S W : List Nat) (G : List Span) (v : DataV) (l : Lab) (x : Nat),
    Good h ((v.kids .L).toList ++ ((v.kids .R).toList ++ S)) W G → h.sk.next ≤ fuel + x → x < h.sk.next → VOK h.sk l v →
    (∀ a, v.alloc = some a → a ∈ S) → (∀ s, KidOK h l x v s) →
    ∃ h', forgetItems fuel h v = .ok h' ∧ Good h' S W (v.kidSpan .R ++ (v.kidSpan .L ++ G)) ∧
      Pruned (fun m => ∃ s, (l.child s).up m) h h'

theorem forgetKid_ok {fuel : Nat} (ih : ForgetSpec α fuel) {h : Heap α} {S W : List Nat} {G : List Span} {v : DataV}
    {l : Lab} {x : Nat} {s : Side} (g : Good h ((v.kids s).toList ++ S) W G) (hf : h.sk.next ≤ fuel + 1 + x)
    (hv : VOK h.sk l v) (ha : ∀ a, v.alloc = some a → a ∈ S) (hk : KidOK h l x v s) :
    ∃ h', forgetKid (forgetItems fuel) h (v.kids s) = .ok h' ∧ Good h' S W (v.kidSpan s ++ G) ∧
      Pruned (fun m => (l.child s).up m) h h' := by
  cases hc : v.kids s with
  | none =>
    rw [hc] at g
    refine ⟨h, rfl, by simpa [DataV.kidSpan, hc] using g, ⟨rfl, rfl, fun _ _ h => h, fun _ _ h => .inl h, ?_, fun _ => Nat.le_refl _⟩⟩
    intro y w hy hu
    have := hk.down y w hy hu
    rw [hc] at this; cases this
  | some c =>
    rw [hc] at g
    obtain ⟨h1, h2, vc, h3⟩ := hk.kid c hc
    have h4 := hk.excl c vc h3 (by rw [h2]; exact Lab.up_refl _)
    have hlt := g.ledger.lt h3
    have vokc : VOK h.sk (l.child s) vc := h2 ▸ g.shape.vok h3
    obtain ⟨e1, e2⟩ := hv.kid g.shape.toAShape vokc
    have g1 : Good (h.kill c) ((vc.kids .L).toList ++ ((vc.kids .R).toList ++ (vc.alloc.toList ++ S))) W
        ((Node.data vc).spans ++ G) := by
      have := Good.kill (S := S) g h3 (by simp [Node.kind]) h4
      refine this.permS ?_
      simp [Node.srefs]
    have hkn : ∀ y m, (h.kill c).sk.node y = some m → y ≠ c ∧ h.sk.node y = some m := fun y m hy => upd_none_some hy
    have hnk : ∀ y m, y ≠ c → h.sk.node y = some m → (h.kill c).sk.node y = some m := fun y m hy e => by
      rw [← e]; exact upd_ne _ _ hy
    obtain ⟨h', f1, f2, f3⟩ := ih (h.kill c) (vc.alloc.toList ++ S) W _ vc (l.child s) c g1 (by
        show h.sk.next ≤ _; omega) hlt
      ⟨vokc.buf, vokc.rng, vokc.hold, fun a e => hnk a _ (by
          rintro rfl; have := vokc.alloc _ e; rw [h3] at this; cases this) (vokc.alloc a e)⟩
      (fun a e => List.mem_append.2 (.inl (by simpa using e)))
      (fun t => ⟨fun c' e => by
          obtain ⟨a1, a2, vc', a3⟩ := g.shape.dataKid c vc t c' h3 e
          exact ⟨a1, h2 ▸ a2, vc', hnk _ _ (by omega) a3⟩,
        fun y w hy hu => g.shape.dataDown c vc y w t h3 (hkn _ _ hy).2 (by rw [h2]; exact hu),
        fun y w hy hu => by
          have := hk.excl y w (hkn _ _ hy).2 (Lab.up_of_child hu)
          rw [← this]; exact upd_ne _ _ (hkn _ _ hy).1⟩)
    -- the allocation reference
    have f4 : ∃ h2, h'.decSharedOpt vc.alloc = .ok h2 ∧ Good h2 S W (vc.kidSpan .R ++ (vc.kidSpan .L ++ ((Node.data vc).spans ++ G))) ∧
        h2.sk = h'.sk ∧ h2.slot = h'.slot ∧ ∀ y, h2.strong y ≤ h'.strong y := by
      cases hal : vc.alloc with
      | none => rw [hal] at f2; exact ⟨h', rfl, f2, rfl, rfl, fun _ => Nat.le_refl _⟩
      | some a =>
        rw [hal] at f2
        have hm := ha a (e2 a hal)
        have h5 : 2 ≤ h'.strong a := by
          have h6 := f2.ledger.s a
          have h7 := List.count_pos_iff.2 hm
          simp only [Option.toList_some, List.singleton_append, List.count_cons_self] at h6; omega
        refine ⟨{ h' with strong := upd h'.strong a (h'.strong a - 1) }, ?_, ⟨f2.shape, f2.ledger.decS (by omega)⟩, rfl, rfl, ?_⟩
        · simp only [Heap.decSharedOpt, Heap.decShared]
          rw [if_neg (by omega), if_neg (by omega)]
        · intro y
          show upd h'.strong a _ y ≤ _
          simp only [upd]; split
          · next e => subst e; omega
          · exact Nat.le_refl _
    obtain ⟨h5, f5, f6, f7, f8, f9⟩ := f4
    refine ⟨h5, ?_, ?_, ?_⟩
    · simp only [forgetKid]
      rw [if_pos h4, getData_ok h3]
      show (do let h ← forgetItems fuel (h.kill c) vc; h.decSharedOpt vc.alloc) = _
      rw [f1]; exact f5
    · refine f6.perm (.refl _) (.refl _) ?_
      intro b i
      have := vc.own_kid b i
      rw [e1] at this
      simp only [DataV.kidSpan, hc, Option.isNone, owners_append] at this ⊢
      simp only [Bool.false_eq_true, if_false, owners_cons, owners_nil]
      omega
    · refine Pruned.of_eq (b := h') ?_ f7 f8 f9
      refine ⟨?_, f3.slot, ?_, ?_, ?_, ?_⟩
      · rw [f3.sk]; rfl
      · intro y m hy; exact (hkn _ _ (f3.sub y m hy)).2
      · intro y m hy
        by_cases e : y = c
        · subst e; rw [h3] at hy; cases hy; exact .inr ⟨rfl, by rw [h2]; exact Lab.up_refl _⟩
        · rcases f3.keep y m (hnk y m e hy) with h | ⟨h, t, h'⟩
          · exact .inl h
          · exact .inr ⟨h, Lab.up_of_child h'⟩
      · intro y w hy hu
        have := f3.gone y w hy
        have hyn := hkn _ _ (f3.sub y _ hy)
        rcases Lab.up_cases hu with e | e
        · exact hyn.1 (g.shape.dataUniq _ _ _ _ hyn.2 h3 (e.symm.trans h2.symm))
        · exact this e
      · intro y
        refine Nat.le_trans (f3.strong y) ?_
        show upd h.strong c 0 y ≤ _
        simp only [upd]; split
        · omega
        · exact Nat.le_refl _

theorem forgetItems_ok (fuel : Nat) : ForgetSpec α fuel := by
  induction fuel with
  | zero => intro h S W G v l x g hf hx; omega
  | succ fuel ih =>
    intro h S W G v l x g hf hx hv ha hk
    obtain ⟨h1, f1, f2, f3⟩ := forgetKid_ok ih (S := (v.kids .R).toList ++ S) g (by omega) hv
      (fun a e => List.mem_append.2 (.inr (ha a e))) (hk .L)
    have nleft : ∀ c, v.kids .R = some c → ∀ m, h.sk.node c = some m → h1.sk.node c = some m := by
      intro c hc m hm
      rcases f3.keep c m hm with h | ⟨_, h⟩
      · exact h
      · obtain ⟨_, e, _⟩ := (hk .R).kid c hc
        rw [e] at h
        rcases Lab.up_child_iff.1 h with h | h
        · have := (Lab.child_inj h).2; cases this
        · exact absurd h (Lab.not_child_up _ _)
    obtain ⟨h2, f4, f5, f6⟩ := forgetKid_ok ih (x := x) (l := l) f2 (by rw [f3.next]; omega)
      ⟨by rw [f3.fams]; exact hv.buf, by rw [f3.fams]; exact hv.rng, by rw [f3.fams]; exact hv.hold, fun a e => by
        rcases f3.keep a _ (hv.alloc a e) with h | ⟨h, _⟩
        · exact h
        · cases h⟩ ha
      ⟨fun c hc => by
        obtain ⟨a1, a2, vc, a3⟩ := (hk .R).kid c hc
        rw [f3.lab]; exact ⟨a1, a2, vc, nleft c hc _ a3⟩,
       fun y w hy hu => (hk .R).down y w (f3.sub _ _ hy) (by rw [f3.lab] at hu; exact hu),
       fun y w hy hu => by
        have h1 := (hk .R).excl y w (f3.sub _ _ hy) (by rw [f3.lab] at hu; exact hu)
        have h2 := f3.strong y
        have h3 := f2.ledger.strong_pos hy
        omega⟩
    refine ⟨h2, ?_, f5, f3.trans f6 ?_⟩
    · simp only [forgetItems]; rw [f1]; exact f4
    · intro m
      constructor
      · rintro ⟨s, h⟩; cases s
        · exact .inl h
        · exact .inr h
      · rintro (h | h)
        · exact ⟨_, h⟩
        · exact ⟨_, h⟩

/-! ## `into_mut` -/

section
variable {h : Heap α} {T : List Tok}

theorem count_cons_ge {x : Nat} {T : List Tok} {t : Tok} (ht : x ∈ t.S) : 1 ≤ (Ss (t :: T)).count x := by
  simp only [Ss_cons, List.count_append]
  have := List.count_pos_iff.2 ht; omega

theorem Inv.img_two (I : Inv h T) {i : Nat} (hi : i ∈ Ss T) {y : Nat} {u : ImgV} (hy : h.sk.node y = some (.img u))
    (hp : u.parent = some i) : 2 ≤ h.strong i := by
  have h1 := I.good.ledger.s i
  have h2 := nsum_le hy (I.good.ledger.lt hy) (fun n => n.srefs.count i)
  have h3 : 0 < (Node.img u).srefs.count i := List.count_pos_iff.2 (by simp [Node.srefs, hp])
  have h4 := List.count_pos_iff.2 hi
  omega

/-- If the guard is not shared, all slice data below is referred to by its parent only. -/
theorem Inv.excl_below {d i : Nat} (I : Inv h (.strong d i :: T)) (h1 : h.strong i = 1) {c : Nat} {w : DataV}
    (hc : h.sk.node c = some (.data w)) (hu : (h.sk.lab d).up (h.sk.lab c)) (hne : h.sk.lab d ≠ h.sk.lab c) :
    h.strong c = 1 := by
  obtain ⟨v, vi, hd, hi, hl⟩ := I.strong_live (List.mem_cons_self ..)
  have hkc : h.sk.kind c = .data := I.good.shape.kinds _ _ hc
  have p1 := I.good.ledger.strong_pos hc
  have p2 := I.good.ledger.s c
  have p3 := I.good.shape.data_refs_le hkc
  suffices hz : (Ss (.strong d i :: T)).count c = 0 by omega
  rw [List.count_eq_zero]; intro hm
  obtain ⟨t, ht, hm⟩ := List.mem_flatMap.1 hm
  have hi2 : i ∈ Ss (.strong d i :: T) := mem_Ss (List.mem_cons_self ..) (by simp [Tok.S])
  cases t with
  | strong d' i' =>
    obtain ⟨v', vi', hd', hi', hl'⟩ := I.strong_live ht
    simp only [Tok.S, List.mem_cons, List.not_mem_nil, or_false] at hm
    rcases hm with rfl | rfl
    · obtain ⟨y, u, hy, hp⟩ := I.good.shape.img_ref hi hi' (by rw [← hl, ← hl']; exact hu) (by rw [← hl, ← hl']; exact hne)
      have := I.img_two hi2 hy hp; omega
    · rw [hc] at hi'; cases hi'
  | weak d' g' =>
    simp only [Tok.S, List.mem_singleton] at hm; subst hm
    have := (I.toks _ ht).1
    rw [hkc] at this; cases this
  | loose x =>
    simp only [Tok.S, List.mem_singleton] at hm; subst hm
    have := I.toks _ ht hkc d v hd hu
    exact hne this
  | reg r =>
    simp only [Tok.S, Option.mem_toList] at hm
    have := (I.toks _ ht).1 c hm
    rw [hc] at this; cases this

/-- Tokens survive pruning below a member whose parents are gone. -/
theorem Pruned.tokOK {h h' : Heap α} {l : Lab} (p : Pruned (fun m => l.up m) h h')
    (htop : ∀ q w, h.sk.node q = some (.data w) → (h.sk.lab q).up l → h.sk.lab q = l) {t : Tok} (ht : TokOK h.sk t) :
    TokOK h'.sk t := by
  cases t with
  | strong d i => simp only [TokOK]; rw [p.kind, p.lab]; exact ht
  | weak d g =>
    obtain ⟨h1, h0, h2⟩ := ht
    simp only [TokOK]
    rw [p.kind, p.lab, p.next]
    refine ⟨h1, fun hn q w hq => h0 hn q w (p.sub _ _ hq), fun x hx => ?_⟩
    obtain ⟨a1, a2, a3, a4⟩ := h2 x hx
    refine ⟨a1, a2, a3, fun q w hq hu => ?_⟩
    obtain ⟨v, hv⟩ := a4 q w (p.sub _ _ hq) hu
    rcases p.keep x _ hv with h | ⟨_, h⟩
    · exact ⟨v, h⟩
    · exfalso
      rcases Lab.up_total h hu with e | e
      · exact p.gone q w hq e
      · have := htop q w (p.sub _ _ hq) e
        exact p.gone q w hq (by rw [this]; exact Lab.up_refl _)
  | loose x =>
    simp only [TokOK]; rw [p.kind, p.lab]
    exact fun hk q w hq => ht hk q w (p.sub _ _ hq)
  | reg r =>
    refine ⟨fun a ha => ?_, by rw [p.zst]; exact ht.2⟩
    rcases p.keep a _ (ht.1 a ha) with h | ⟨h, _⟩
    · exact h
    · cases h

/-- rc_slice.rs:405-419. -/
theorem intoMut_ok {d i : Nat} {v : DataV} (I : Inv h (.strong d i :: T)) (hd : h.sk.node d = some (.data v)) :
    (intoMut h d i = .ok (h, none) ∧ ¬ (h.strong d = 1 ∧ h.strong i = 1)) ∨
    (h.strong d = 1 ∧ h.strong i = 1 ∧ ∃ h', intoMut h d i = .ok (h', some (⟨v.buf, v.off, v.len, v.alloc⟩, [.dropS i])) ∧
      Inv h' (.reg ⟨v.buf, v.off, v.len, v.alloc⟩ :: .loose i :: T) ∧
      Pruned (fun m => (h.sk.lab d).up m) h h') := by
  obtain ⟨_, vi, _, hi, hl⟩ := I.strong_live (List.mem_cons_self ..)
  have pd := I.good.ledger.strong_pos hd
  have pi := I.good.ledger.strong_pos hi
  by_cases c1 : h.strong i = 1
  · by_cases c2 : h.strong d = 1
    · right
      refine ⟨c2, c1, ?_⟩
      have hlt := I.good.ledger.lt hd
      have g0 : Good h (d :: (i :: Ss T)) (Ws T) (Gs T) := I.good
      have htop : ∀ q w, h.sk.node q = some (.data w) → (h.sk.lab q).up (h.sk.lab d) → h.sk.lab q = h.sk.lab d := by
        intro q w hq hu
        apply Classical.byContradiction; intro hne
        obtain ⟨y, u, s, hy, hp⟩ := I.good.shape.data_parent hq hd hu hne
        refine g0.ledger.no_ref c2 hy ?_
        cases s <;> simp [Node.srefs, hp]
      have g1 : Good (h.kill d) ((v.kids .L).toList ++ ((v.kids .R).toList ++ (v.alloc.toList ++ (i :: Ss T)))) (Ws T)
          ((Node.data v).spans ++ Gs T) := by
        have := Good.kill g0 hd (by simp [Node.kind]) c2
        refine this.permS ?_
        simp [Node.srefs]
      have hkn : ∀ y m, (h.kill d).sk.node y = some m → y ≠ d ∧ h.sk.node y = some m := fun y m hy => upd_none_some hy
      have hnk : ∀ y m, y ≠ d → h.sk.node y = some m → (h.kill d).sk.node y = some m := fun y m hy e => by
        rw [← e]; exact upd_ne _ _ hy
      have vok := I.good.shape.vok hd
      obtain ⟨h', f1, f2, f3⟩ := forgetItems_ok h.sk.next (h.kill d) (v.alloc.toList ++ (i :: Ss T)) (Ws T) _ v
        (h.sk.lab d) d g1 (by show h.sk.next ≤ _; omega) hlt
        ⟨vok.buf, vok.rng, vok.hold, fun a e => hnk a _ (by
            rintro rfl; have := vok.alloc _ e; rw [hd] at this; cases this) (vok.alloc a e)⟩
        (fun a e => List.mem_append.2 (.inl (by simpa using e)))
        (fun t => ⟨fun c' e => by
            obtain ⟨a1, a2, vc', a3⟩ := g0.shape.dataKid d v t c' hd e
            exact ⟨a1, a2, vc', hnk _ _ (by omega) a3⟩,
          fun y w hy hu => g0.shape.dataDown d v y w t hd (hkn _ _ hy).2 hu,
          fun y w hy hu => by
            have := I.excl_below c1 (hkn _ _ hy).2 (Lab.up_of_child hu) (by
              intro e
              have hu' : ((h.sk.lab d).child t).up (h.sk.lab y) := hu
              rw [← e] at hu'; exact Lab.not_child_up _ _ hu')
            rw [← this]; exact upd_ne _ _ (hkn _ _ hy).1⟩)
      have pr : Pruned (fun m => (h.sk.lab d).up m) h h' := by
        refine ⟨?_, f3.slot, ?_, ?_, ?_, ?_⟩
        · rw [f3.sk]; rfl
        · intro y m hy; exact (hkn _ _ (f3.sub y m hy)).2
        · intro y m hy
          by_cases e : y = d
          · subst e; rw [hd] at hy; cases hy; exact .inr ⟨rfl, Lab.up_refl _⟩
          · rcases f3.keep y m (hnk y m e hy) with h | ⟨h, t, h'⟩
            · exact .inl h
            · exact .inr ⟨h, Lab.up_of_child h'⟩
        · intro y w hy hu
          have := f3.gone y w hy
          have hyn := hkn _ _ (f3.sub y _ hy)
          rcases Lab.up_cases hu with e | e
          · exact hyn.1 (g0.shape.dataUniq _ _ _ _ hyn.2 hd e.symm)
          · exact this e
        · intro y
          refine Nat.le_trans (f3.strong y) ?_
          show upd h.strong d 0 y ≤ _
          simp only [upd]; split
          · omega
          · exact Nat.le_refl _
      refine ⟨h', ?_, ?_, pr⟩
      · simp only [intoMut]
        rw [if_neg (by omega), if_pos c1, if_pos c2, getData_ok hd]
        show (do let h ← forgetItems h.sk.next (h.kill d) v; pure (h, _)) = _
        rw [f1]; rfl
      · constructor
        · refine f2.perm (.refl _) (.refl _) ?_
          intro b j
          have := v.own_kid b j
          simp only [Gs_cons, Tok.G, owners_append, Reg.span, DataV.span, owners_cons, owners_nil] at this ⊢
          omega
        · intro t ht
          simp only [List.mem_cons] at ht
          rcases ht with rfl | rfl | ht
          · refine Pruned.tokOK pr htop ⟨fun a ha => vok.alloc a ha, fun h1 h2 => g0.shape.dataMem d v hd h1 h2⟩
          · refine Pruned.tokOK pr htop (t := .loose i) ?_
            intro hk
            have := g0.shape.kinds _ _ hi
            rw [hk] at this; cases this
          · exact pr.tokOK htop (I.toks t (List.mem_cons_of_mem _ ht))
        · rw [pr.nbuf, pr.slot]; exact I.bufs
    · left
      refine ⟨?_, fun h => c2 h.1⟩
      simp only [intoMut]; rw [if_neg (by omega), if_pos c1, if_neg c2]; rfl
  · left
    refine ⟨?_, fun h => c1 h.2⟩
    simp only [intoMut]; rw [if_neg (by omega), if_neg c1]; rfl

end

end Verif.Rc
