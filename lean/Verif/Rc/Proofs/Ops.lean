import Verif.Rc.Proofs.Exact
/-!
# The functions of the code, with handles

Every function keeps the invariant, handle for handle.
-/

namespace Verif.Rc
open Verif.Spec (Side Slot Family Rng)
variable {α : Type}

section
variable {h : Heap α} {T : List Tok} {d i : Nat}

theorem Same.bufs {h h' : Heap α} (s : Same h h') (hb : ∀ b i, h.sk.nbuf ≤ b → h.slot b i = .absent) :
    ∀ b i, h'.sk.nbuf ≤ b → h'.slot b i = .absent := by
  intro b i; rw [s.nbufEq, s.slot]; exact hb b i

/-- `rc_slice.rs:430-437`. -/
theorem rcClone_ok (I : Inv h T) (ht : .strong d i ∈ T) :
    ∃ h', rcClone h d i = .ok h' ∧ Inv h' (.strong d i :: T) ∧ h'.sk = h.sk ∧ h'.slot = h.slot := by
  obtain ⟨v, vi, hd, hi, hl⟩ := I.strong_live ht
  obtain ⟨h1, e1, g1, k1, s1⟩ := I.good.incS (I.good.ledger.strong_pos hd)
  obtain ⟨h2, e2, g2, k2, s2⟩ := g1.incS (x := i) (g1.ledger.strong_pos (by rw [k1]; exact hi))
  have ek : h2.sk = h.sk := k2.trans k1
  refine ⟨h2, ?_, ?_, ek, s2.trans s1⟩
  · simp only [rcClone]; rw [e1]; exact e2
  · refine ⟨g2.permS (List.Perm.swap ..), ?_, ?_⟩
    · intro t h3
      rw [ek]
      rcases List.mem_cons.1 h3 with rfl | h3
      · exact I.toks _ ht
      · exact I.toks _ h3
    · rw [ek, s2, s1]; exact I.bufs

/-- The subslice a half of a slice is. -/
def Lab.halfOf (l : Lab) (len : Nat) (s : Side) : Lab := if sameNode len s then l else l.child s

/-- `rc_slice.rs:346-364`. -/
theorem rcCloneSide_ok (I : Inv h T) (ht : .strong d i ∈ T) {v : DataV} (hd : h.sk.node d = some (.data v)) (s : Side) :
    ∃ h' c j, rcCloneSide h d i s = .ok (h', c, j) ∧ Inv h' (.strong c j :: T) ∧ Same h h' ∧
      h'.sk.lab c = (h.sk.lab d).halfOf v.len s := by
  simp only [rcCloneSide, getData_ok hd, Lab.halfOf]
  by_cases hs : sameNode v.len s = true
  · obtain ⟨h', e, I', ek, es⟩ := rcClone_ok I ht
    refine ⟨h', d, i, ?_, I', .of_eq ek es, ?_⟩
    · simp only [bind, Except.bind, hs, if_true]; rw [e]; rfl
    · rw [ek, if_pos hs]
  · obtain ⟨_, vi, _, hi, hl⟩ := I.strong_live ht
    obtain ⟨h1, c, e1, g1, s1, l1, vc, n1⟩ := dataCloneChild_ok I.good hd s
    obtain ⟨vi', hi', _⟩ := s1.img i vi hi
    obtain ⟨h2, j, e2, g2, s2, l2, wc, n2⟩ := imgCloneChild_ok g1 hi' s
    have s12 := s1.trans I.good.shape.toBase g1.shape.toBase s2
    have ljc : h2.sk.lab c = h1.sk.lab c := s2.lab c (g1.ledger.lt n1)
    have lc : h2.sk.lab c = (h.sk.lab d).child s := ljc.trans l1
    refine ⟨h2, c, j, ?_, ?_, s12, ?_⟩
    · simp only [bind, Except.bind, hs, e1]; rw [e2]; rfl
    · refine I.ext (g2.permS (List.Perm.swap ..)) s12.toExt (s12.bufs I.bufs) ?_
      intro t h3
      rcases List.mem_cons.1 h3 with rfl | h3
      · refine .inr ⟨?_, ?_, ?_⟩
        · obtain ⟨v2, n3, _⟩ := s2.data c vc n1
          exact g2.shape.kinds _ _ n3
        · exact g2.shape.kinds _ _ n2
        · rw [lc, l2, s1.lab i (I.good.ledger.lt hi), hl]
      · exact .inl h3
    · rw [lc, if_neg hs]

/-- `rc_slice.rs:421-423`. -/
theorem downgrade_ok (I : Inv h T) (ht : .strong d i ∈ T) :
    ∃ h' g, downgrade h d i = .ok (h', g) ∧ Inv h' (.weak (some d) g :: T) ∧ h'.sk = h.sk ∧ h'.slot = h.slot := by
  obtain ⟨v, vi, hd, hi, hl⟩ := I.strong_live ht
  obtain ⟨eg, vg, hg⟩ := I.good.shape.imgGmg i vi hi
  obtain ⟨h1, e1, g1, k1, s1⟩ := I.good.incW hd
  have hi1 : h1.sk.node i = some (.img vi) := by rw [k1]; exact hi
  obtain ⟨h2, e2, g2, k2, s2⟩ := g1.incS (x := vi.gmg) (g1.ledger.strong_pos (by rw [k1]; exact hg))
  have ek : h2.sk = h.sk := k2.trans k1
  refine ⟨h2, vi.gmg, ?_, ⟨g2, ?_, ?_⟩, ek, s2.trans s1⟩
  · simp only [downgrade, e1, bind, Except.bind, getImg_ok hi1, e2]; rfl
  · intro t h3
    rw [ek]
    rcases List.mem_cons.1 h3 with rfl | h3
    · refine ⟨I.good.shape.kinds _ _ hg, fun h => (by cases h), ?_⟩
      intro x hx; cases hx
      exact ⟨I.good.shape.kinds _ _ hd, I.good.ledger.lt hd, by rw [eg, hl], fun _ _ _ _ => ⟨v, hd⟩⟩
    · exact I.toks _ h3
  · rw [ek, s2, s1]; exact I.bufs

theorem mem_Ws {t : Tok} {y : Nat} (ht : t ∈ T) (hy : y ∈ t.W) : y ∈ Ws T := List.mem_flatMap.2 ⟨t, ht, hy⟩

/-- `rc_slice.rs:505-512`. -/
theorem weakClone_ok (I : Inv h T) {o : Option Nat} {g : Nat} (ht : .weak o g ∈ T) :
    ∃ h', weakClone h o g = .ok h' ∧ Inv h' (.weak o g :: T) ∧ h'.sk = h.sk ∧ h'.slot = h.slot := by
  obtain ⟨vg, hg⟩ := I.weak_live ht
  obtain ⟨h1, e1, g1, k1, s1⟩ := I.good.cloneW (o := o) fun x hx => mem_Ws ht (by simp [Tok.W, hx])
  obtain ⟨h2, e2, g2, k2, s2⟩ := g1.incS (x := g) (g1.ledger.strong_pos (by rw [k1]; exact hg))
  have ek : h2.sk = h.sk := k2.trans k1
  refine ⟨h2, ?_, ⟨g2, ?_, ?_⟩, ek, s2.trans s1⟩
  · simp only [weakClone, e1, bind, Except.bind]; exact e2
  · intro t h3
    rw [ek]
    rcases List.mem_cons.1 h3 with rfl | h3
    · exact I.toks _ ht
    · exact I.toks _ h3
  · rw [ek, s2, s1]; exact I.bufs

/-- `rc_slice.rs:478-502`. -/
theorem upgradeWeak_ok (I : Inv h T) {o : Option Nat} {g : Nat} (ht : .weak o g ∈ T) :
    (upgradeWeak h o g = .ok (h, none) ∧ ∀ x, o = some x → h.sk.node x = none) ∨
    ∃ h' x v j, o = some x ∧ h.sk.node x = some (.data v) ∧ upgradeWeak h o g = .ok (h', some (x, j)) ∧
      Inv h' (.strong x j :: T) ∧ Same h h' := by
  obtain ⟨a1, a2, a3⟩ := I.toks _ ht
  rcases I.good.upgrade (o := o) (fun x hx => I.good.ledger.wpos_of_tok (mem_Ws ht (by simp [Tok.W, hx]))) with
    ⟨e, hn⟩ | ⟨h1, x, n, rfl, e, g1, k1, s1, hx⟩
  · refine .inl ⟨?_, hn⟩
    simp only [upgradeWeak, e]; rfl
  · obtain ⟨b1, b2, b3, b4⟩ := a3 x rfl
    obtain ⟨v, hv⟩ := I.good.shape.toBase.data_of hx b1
    obtain ⟨vg, hg⟩ := I.weak_live ht
    obtain ⟨h2, j, e2, g2, s2, l2, wc, n2⟩ := ensureImg_ok (g + 1) g1 (x := g) (v := vg) (by rw [k1]; exact hg) (by omega)
    have s12 := (Same.of_eq k1 s1).trans I.good.shape.toBase (k1 ▸ I.good.shape.toBase) s2
    refine .inr ⟨h2, x, v, j, rfl, hv, ?_, ?_, s12⟩
    · simp only [upgradeWeak, e, bind, Except.bind, e2]; rfl
    · refine I.ext (g2.permS (List.Perm.swap ..)) s12.toExt (s12.bufs I.bufs) ?_
      intro t h3
      rcases List.mem_cons.1 h3 with rfl | h3
      · refine .inr ⟨?_, g2.shape.kinds _ _ n2, ?_⟩
        · rw [s12.kind x b2]; exact b1
        · rw [l2, s12.lab x b2, k1, b3]
      · exact .inl h3

/-- `rc_slice.rs:384-403`. -/
theorem getMutOk_ok (I : Inv h T) (ht : .strong d i ∈ T) {vi : ImgV} (hi : h.sk.node i = some (.img vi)) :
    getMutOk h d i = .ok (h.strong d == 1 && h.strong vi.gmg == 1) := by
  obtain ⟨v, _, hd, _, _⟩ := I.strong_live ht
  obtain ⟨_, vg, hg⟩ := I.good.shape.imgGmg i vi hi
  have h1 := I.good.ledger.strong_pos hd
  have h2 := I.good.ledger.strong_pos hg
  simp only [getMutOk, getImg_ok hi, bind, Except.bind]
  rw [if_neg (by omega)]; rfl

/-- `rc_slice_mut.rs:96-101`. -/
theorem intoImmut_ok {r : Reg} (I : Inv h (.reg r :: T)) :
    ∃ h' d i, rcFromParts h r = .ok (h', d, i) ∧ Inv h' (.strong d i :: T) ∧ Ext h.sk h'.sk ∧ h'.slot = h.slot ∧
      h'.sk.mem = h.sk.mem ∧ h'.sk.nbuf = h.sk.nbuf ∧ h'.sk.nfam = h.sk.nfam + 1 ∧
      h'.sk.fams h.sk.nfam = ⟨r.buf, ⟨r.off, r.len⟩, r.alloc.isSome⟩ ∧ h'.sk.lab d = ⟨h.sk.nfam, []⟩ := by
  obtain ⟨a1, a2⟩ := I.toks _ (List.mem_cons_self ..)
  obtain ⟨h', d, i, e, g, x, es, em, eb, ef, efam, l1, l2, ⟨v, n1⟩, w, n2⟩ := rcFromParts_ok (r := r) I.good a1 a2
  refine ⟨h', d, i, e, ?_, x, es, em, eb, ef, efam, l1⟩
  refine I.ext g x (by rw [es, eb]; exact I.bufs) ?_
  intro t h3
  rcases List.mem_cons.1 h3 with rfl | h3
  · exact .inr ⟨g.shape.kinds _ _ n1, g.shape.kinds _ _ n2, by rw [l1, l2]⟩
  · exact .inl (List.mem_cons_of_mem _ h3)

/-- `rc_slice.rs:474-476`. -/
theorem weakNew_inv (I : Inv h T) : Inv (weakNew h).1 (.weak none (weakNew h).2 :: T) := by
  obtain ⟨g, x, es, em, eb, ek⟩ := weakNew_ok I.good
  refine I.ext g x (by rw [es, eb]; exact I.bufs) ?_
  intro t h3
  rcases List.mem_cons.1 h3 with rfl | h3
  · refine .inr ⟨ek, fun _ q w hq => ?_, fun x hx => (by cases hx)⟩
    have hne : q ≠ h.sk.next := by
      rintro rfl
      have h4 := (g.shape.kinds _ _ hq).symm.trans ek; cases h4
    have hq' : h.sk.node q = some (.data w) := by
      have h4 : upd h.sk.node h.sk.next _ q = _ := hq
      rwa [upd_ne _ _ hne] at h4
    have h5 := I.good.shape.famLt q (I.good.ledger.lt hq') (by rw [I.good.shape.kinds _ _ hq']; simp [Node.kind])
    rw [x.lab q (I.good.ledger.lt hq')]
    have : ((weakNew h).1.sk.lab (weakNew h).2) = ⟨h.sk.nfam, []⟩ := upd_same _ _ _
    rw [this]; simp only; omega
  · exact .inl h3

/-- Cutting a range of items in two, with their allocation references. -/
theorem Inv.cutReg {r r1 r2 : Reg} {h' : Heap α} (I : Inv h (.reg r :: T))
    (hb1 : r1.buf = r.buf) (hb2 : r2.buf = r.buf)
    (hsp : ∀ b j, r1.span.num b j + r2.span.num b j = r.span.num b j)
    (hz1 : 0 < r1.len → 0 < r.len ∧ r1.alloc = r.alloc) (hz2 : 0 < r2.len → 0 < r.len ∧ r2.alloc = r.alloc)
    (ha1 : ∀ a, r1.alloc = some a → r.alloc = some a) (ha2 : ∀ a, r2.alloc = some a → r.alloc = some a)
    (hg : Good h' (r1.alloc.toList ++ (r2.alloc.toList ++ Ss T)) (Ws T) (r.span :: Gs T)) (hk : h'.sk = h.sk)
    (hs : h'.slot = h.slot) : Inv h' (.reg r1 :: .reg r2 :: T) := by
  obtain ⟨a1, a2⟩ := I.toks _ (List.mem_cons_self ..)
  refine ⟨hg.perm (.refl _) (.refl _) ?_, ?_, ?_⟩
  · intro b j
    simp only [Gs_cons, Tok.G, owners_cons, owners_append, owners_nil]
    have := hsp b j; omega
  · intro t ht
    rw [hk]
    rcases List.mem_cons.1 ht with rfl | ht
    · refine ⟨fun a ha => by rw [hb1]; exact a1 a (ha1 a ha), fun h1 h2 => ?_⟩
      obtain ⟨b1, b2⟩ := hz1 h1
      exact a2 b1 (b2 ▸ h2)
    · rcases List.mem_cons.1 ht with rfl | ht
      · refine ⟨fun a ha => by rw [hb2]; exact a1 a (ha2 a ha), fun h1 h2 => ?_⟩
        obtain ⟨b1, b2⟩ := hz2 h1
        exact a2 b1 (b2 ▸ h2)
      · exact I.toks _ (List.mem_cons_of_mem _ ht)
  · rw [hk, hs]; exact I.bufs

/-- Cloning the allocation reference of a range. -/
theorem Inv.incReg {r : Reg} (I : Inv h (.reg r :: T)) {o : Option Nat} (ho : ∀ a, o = some a → r.alloc = some a) :
    ∃ h', h.incSOpt o = .ok h' ∧ Good h' (o.toList ++ (r.alloc.toList ++ Ss T)) (Ws T) (r.span :: Gs T) ∧ h'.sk = h.sk ∧
      h'.slot = h.slot := by
  obtain ⟨a1, a2⟩ := I.toks _ (List.mem_cons_self ..)
  exact I.good.incSOpt (o := o) fun a ha => I.good.ledger.strong_pos (a1 a (ho a ha))

/-- `rc_slice_mut.rs:180-186, 192-198, 253-259, 271-277`. -/
theorem splitAlloc_ok {r r1 r2 : Reg} (I : Inv h (.reg r :: T)) (hb1 : r1.buf = r.buf) (hb2 : r2.buf = r.buf)
    (hsp : ∀ b j, r1.span.num b j + r2.span.num b j = r.span.num b j) (hl1 : r1.len ≤ r.len) (hl2 : r2.len ≤ r.len) :
    ∃ h' a b, splitAlloc h r.alloc r2.len r1.len = .ok (h', a, b) ∧
      Inv h' (.reg { r1 with alloc := a } :: .reg { r2 with alloc := b } :: T) ∧ h'.sk = h.sk ∧ h'.slot = h.slot ∧
      (a.isSome, b.isSome) = Spec.World.splitHolds r.alloc.isSome r1.len r2.len := by
  have g0 : Good h (r.alloc.toList ++ Ss T) (Ws T) (r.span :: Gs T) := I.good
  by_cases h1 : r2.len = 0
  · refine ⟨h, r.alloc, none, ?_, ?_, rfl, rfl, ?_⟩
    · simp only [splitAlloc]; rw [if_pos h1]
    · refine I.cutReg hb1 hb2 hsp (fun h => ⟨by simp only at h; omega, rfl⟩) (fun h => by simp only at h; omega)
        (fun a h => h) (fun a h => by cases h) ?_ rfl rfl
      simpa using g0
    · simp [Spec.World.splitHolds, h1]
  · by_cases h2 : 0 < r1.len
    · obtain ⟨h', e, g, ek, es⟩ := I.incReg (o := r.alloc) fun a h => h
      refine ⟨h', r.alloc, r.alloc, ?_, ?_, ek, es, ?_⟩
      · simp only [splitAlloc]; rw [if_neg h1, if_pos h2, e]; rfl
      · exact I.cutReg hb1 hb2 hsp (fun h => ⟨by omega, rfl⟩) (fun h => ⟨by omega, rfl⟩)
          (fun a h => h) (fun a h => h) g ek es
      · simp only [Spec.World.splitHolds]; rw [if_neg h1, if_neg (by omega)]
    · refine ⟨h, none, r.alloc, ?_, ?_, rfl, rfl, ?_⟩
      · simp only [splitAlloc]; rw [if_neg h1, if_neg h2]
      · refine I.cutReg hb1 hb2 hsp (fun h => absurd h h2) (fun h => ⟨by simp only at h; omega, rfl⟩)
          (fun a h => by cases h) (fun a h => h) ?_ rfl rfl
        simpa using g0
      · simp only [Spec.World.splitHolds]; rw [if_neg h1, if_pos (by omega)]; rfl

theorem num_split' (b off m n x i : Nat) (h : m ≤ n) :
    Span.num x i ⟨b, off, m⟩ + Span.num x i ⟨b, off + m, n - m⟩ = Span.num x i ⟨b, off, n⟩ := by
  rw [num_split, Nat.add_sub_cancel' h]

/-- `rc_slice_mut.rs:78-88`. -/
theorem regSplitOff_ok {r : Reg} (I : Inv h (.reg r :: T)) (s : Side) :
    ∃ h' r1 r2, regSplitOff h r s = .ok (h', r1, r2) ∧ Inv h' (.reg r1 :: .reg r2 :: T) ∧ h'.sk = h.sk ∧ h'.slot = h.slot ∧
      r1.buf = r.buf ∧ r2.buf = r.buf ∧ (⟨r1.off, r1.len⟩, ⟨r2.off, r2.len⟩) = (Rng.mk r.off r.len).split s ∧
      r1.alloc = (if r1.len > 0 then r.alloc else none) ∧ r2.alloc = r.alloc := by
  have hle : r.len >>> 1 ≤ r.len := by rw [Nat.shiftRight_eq_div_pow]; omega
  have hsh : r.len >>> 1 = r.len / 2 := by rw [Nat.shiftRight_eq_div_pow]
  have hsp := fun x j => num_split' r.buf r.off (r.len >>> 1) r.len x j hle
  have hinc : ∀ n : Nat, ∀ a, (if n > 0 then r.alloc else none) = some a → r.alloc = some a := by
    intro n a h; split at h
    · exact h
    · cases h
  cases s with
  | L =>
    obtain ⟨h', e, g, ek, es⟩ := I.incReg (o := if r.len >>> 1 > 0 then r.alloc else none) (hinc _)
    refine ⟨h', ⟨r.buf, r.off, r.len >>> 1, if r.len >>> 1 > 0 then r.alloc else none⟩,
      ⟨r.buf, r.off + r.len >>> 1, r.len - r.len >>> 1, r.alloc⟩, ?_, ?_, ek, es, rfl, rfl, ?_, rfl, rfl⟩
    · simp only [regSplitOff, e, bind, Except.bind]; rfl
    · refine I.cutReg rfl rfl hsp (fun h => ⟨by simp only at h; omega, ?_⟩) (fun h => ⟨by simp only at h; omega, rfl⟩)
        (hinc _) (fun a h => h) g ek es
      simp only at h; simp only; rw [if_pos h]
    · simp only [Rng.split, Rng.left, Rng.right, hsh]
  | R =>
    obtain ⟨h', e, g, ek, es⟩ := I.incReg (o := if r.len - r.len >>> 1 > 0 then r.alloc else none) (hinc _)
    refine ⟨h', ⟨r.buf, r.off + r.len >>> 1, r.len - r.len >>> 1, if r.len - r.len >>> 1 > 0 then r.alloc else none⟩,
      ⟨r.buf, r.off, r.len >>> 1, r.alloc⟩, ?_, ?_, ek, es, rfl, rfl, ?_, rfl, rfl⟩
    · simp only [regSplitOff, e, bind, Except.bind]; rfl
    · refine I.cutReg rfl rfl (fun x j => by rw [Nat.add_comm]; exact hsp x j) (fun h => ⟨by simp only at h; omega, ?_⟩)
        (fun h => ⟨by simp only at h; omega, rfl⟩) (hinc _) (fun a h => h) g ek es
      simp only at h; simp only; rw [if_pos h]
    · simp only [Rng.split, Rng.left, Rng.right, hsh]

end

/-! ## New buffers -/

section
variable {h : Heap α} {T : List Tok}

/-- The items of a new buffer. -/
def boxSlot (xs : List α) (i : Nat) : Slot α := match xs[i]? with | some a => .live a | none => .absent

theorem boxSlot_num (xs : List α) (b i : Nat) : num (boxSlot xs i) = Span.num b i ⟨b, 0, xs.length⟩ := by
  unfold boxSlot
  by_cases hi : i < xs.length
  · rw [List.getElem?_eq_getElem hi]; simp [num, Span.num, hi]
  · rw [List.getElem?_eq_none (by omega)]; simp [num, Span.num, hi]

/-- The ledger after a buffer was added. -/
theorem Ledger.newBuf {S W : List Nat} {G : List Span} (L : Ledger h S W G) (hb : ∀ b i, h.sk.nbuf ≤ b → h.slot b i = .absent)
    (xs : List α) : Ledger (newBuf h xs).1 S W (⟨h.sk.nbuf, 0, xs.length⟩ :: G) where
  s := L.s
  w := L.w
  o b i := by
    have h1 := L.o b i
    simp only [owners_cons]
    show nsum h.sk _ + _ = num (upd h.slot h.sk.nbuf (boxSlot xs) b i)
    by_cases e : b = h.sk.nbuf
    · subst e
      rw [hb _ i (Nat.le_refl _)] at h1
      simp only [num] at h1
      rw [upd_same, boxSlot_num xs h.sk.nbuf]; omega
    · rw [upd_ne _ _ e]
      have : Span.num b i ⟨h.sk.nbuf, 0, xs.length⟩ = 0 := by simp [Span.num, Ne.symm e]
      omega
  live := L.live
  fresh := L.fresh
  freshW := L.freshW

theorem Ext.bufAdd (k : Skel) (m : Bool) (n : Nat) : Ext k (k.bufAdd m n) where
  toGrow := .bufAdd k m n
  data _ v h := ⟨v, h, rfl, rfl, rfl, rfl⟩
  img _ v h := ⟨v, h, rfl, rfl⟩
  gmg _ v h := ⟨v, h, rfl⟩
  alloc _ _ h := h
  dataNew _ v h := .inl ⟨v, h⟩
  memLe b hb := by
    show upd k.mem k.nbuf m b = _
    exact upd_ne _ _ (by omega)

/-- A box enters without an allocation object: it is empty, or its items are zero-sized. -/
theorem boxPlain_ok (I : Inv h T) (xs : List α) (hz : xs.length = 0 ∨ h.sk.zst = true) :
    Inv (newBuf h xs).1 (.reg ⟨h.sk.nbuf, 0, xs.length, none⟩ :: T) ∧ Ext h.sk (newBuf h xs).1.sk := by
  have hm : (!h.sk.zst && !xs.isEmpty) = false := by
    rcases hz with hz | hz
    · rw [List.length_eq_zero_iff] at hz; subst hz; simp
    · simp [hz]
  have ek : (newBuf h xs).1.sk = h.sk.bufAdd false xs.length := by simp only [newBuf, Skel.bufAdd, hm]
  have x : Ext h.sk (newBuf h xs).1.sk := by rw [ek]; exact .bufAdd _ _ _
  refine ⟨I.ext ⟨?_, I.good.ledger.newBuf I.bufs xs⟩ x ?_ ?_, x⟩
  · rw [ek]; exact I.good.shape.bufAdd _
  · intro b i hb
    show upd h.slot h.sk.nbuf _ b i = _
    have hb' : h.sk.nbuf + 1 ≤ b := hb
    rw [upd_ne _ _ (by omega)]; exact I.bufs b i (by omega)
  · intro t ht
    rcases List.mem_cons.1 ht with rfl | ht
    · refine .inr ⟨fun a ha => (by cases ha), fun h1 _ => ?_⟩
      rw [x.zst]
      rcases hz with hz | hz
      · simp only at h1; omega
      · exact hz
    · exact .inl ht

/-- A box enters with an allocation object. -/
theorem boxAlloc_ok (I : Inv h T) (xs : List α) (hl : xs.length ≠ 0) :
    Inv ((newBuf h xs).1.rcNew (.alloc h.sk.nbuf) ⟨0, []⟩).1 (.reg ⟨h.sk.nbuf, 0, xs.length, some h.sk.next⟩ :: T) ∧
    Ext h.sk ((newBuf h xs).1.rcNew (.alloc h.sk.nbuf) ⟨0, []⟩).1.sk := by
  have hm : (!h.sk.zst && !xs.isEmpty) = !h.sk.zst := by
    have : xs.isEmpty = false := by cases xs <;> simp_all
    simp [this]
  have ek0 : (newBuf h xs).1.sk = h.sk.bufAdd (!h.sk.zst) xs.length := by simp only [newBuf, Skel.bufAdd, hm]
  have ek : ((newBuf h xs).1.rcNew (.alloc h.sk.nbuf) ⟨0, []⟩).1.sk =
      (h.sk.bufAdd (!h.sk.zst) xs.length).add (.alloc h.sk.nbuf) ⟨0, []⟩ := by
    rw [← ek0]; rfl
  have B : Base (h.sk.bufAdd (!h.sk.zst) xs.length) := ⟨I.good.shape.kinds, I.good.shape.famLt, I.good.shape.fresh⟩
  have x : Ext h.sk ((newBuf h xs).1.rcNew (.alloc h.sk.nbuf) ⟨0, []⟩).1.sk := by
    rw [ek]
    exact (Ext.bufAdd _ _ _).trans I.good.shape.toBase B (Ext.add B (by simp [Node.kind]))
  have L := Ledger.rcNew (n := .alloc h.sk.nbuf) (S := Ss T) (W := Ws T) (G := ⟨h.sk.nbuf, 0, xs.length⟩ :: Gs T)
    (I.good.ledger.newBuf I.bufs xs) ⟨0, []⟩
  refine ⟨I.ext ⟨?_, L⟩ x ?_ ?_, x⟩
  · rw [ek]; exact I.good.shape.bufAlloc _
  · intro b i hb
    show upd h.slot h.sk.nbuf _ b i = _
    have hb' : h.sk.nbuf + 1 ≤ b := hb
    rw [upd_ne _ _ (by omega)]; exact I.bufs b i (by omega)
  · intro t ht
    rcases List.mem_cons.1 ht with rfl | ht
    · refine .inr ⟨fun a ha => ?_, fun h1 h2 => (by cases h2)⟩
      cases ha
      rw [ek]; exact add_node_new _ _ _
    · exact .inl ht

end

/-! ## Reading and writing -/

section
variable {h : Heap α} {T : List Tok}

/-- The items of a range. -/
def lookAt (slot : Nat → Slot α) (off len : Nat) : List α :=
  (List.range' off len).filterMap fun i => match slot i with
    | .live a => some a
    | _ => none

theorem readRange_ok {b : Nat} : ∀ {len off : Nat}, (0 < len → h.accessible b = true) →
    (∀ j, off ≤ j → j < off + len → ∃ a, h.slot b j = .live a) →
    readRange h b off len = .ok (lookAt (h.slot b) off len) ∧ (lookAt (h.slot b) off len).length = len := by
  intro len
  induction len with
  | zero => intro off _ _; exact ⟨rfl, rfl⟩
  | succ n ih =>
    intro off hacc hlive
    obtain ⟨a, ha⟩ := hlive off (Nat.le_refl _) (by omega)
    obtain ⟨e1, e2⟩ := ih (off := off + 1) (fun _ => hacc (by omega)) (fun j h1 h2 => hlive j (by omega) (by omega))
    have : lookAt (h.slot b) off (n + 1) = a :: lookAt (h.slot b) (off + 1) n := by
      simp only [lookAt, List.range'_succ, List.filterMap_cons, ha]
    rw [this]
    refine ⟨?_, by simp [e2]⟩
    simp only [readRange, hacc (by omega), ha, e1]; rfl

/-- An item is overwritten. -/
theorem Inv.write (I : Inv h T) {b i : Nat} {a a' : α} (hs : h.slot b i = .live a) : Inv (h.setSlot b i (.live a')) T := by
  refine ⟨⟨I.good.shape, I.good.ledger.setSlot (fun _ _ _ => rfl) (by rw [hs]; rfl)⟩, I.toks, ?_⟩
  intro b' i' hb
  rw [setSlot_slot]
  have := I.bufs b' i' hb
  split
  · rename_i e; obtain ⟨rfl, rfl⟩ := e
    rw [hs] at this; cases this
  · exact this

theorem writeItem_ok {b i : Nat} {a a' : α} (hacc : h.accessible b = true) (hs : h.slot b i = .live a) :
    writeItem h b i a' = .ok (h.setSlot b i (.live a')) := by
  simp [writeItem, hacc, hs]

end

end Verif.Rc
