import Verif.Rc.Proofs.SimOps2
/-!
# Calls on unique slices and their iterators, drops
-/

namespace Verif.Rc
open Verif.Spec (Side Slot Family Rng Hand World Op Obs End)
variable {α : Type}

section
variable {umax : Nat} {s : State α} {w : World α} {T : List Tok}

theorem partsReg_ok (R : Rel umax s w T) {b : Nat} {a : Option Nat} {m f c : Nat} {r : Rng} (h1 : f + c ≤ 2 ^ m)
    (h3 : RngIn s.h.sk b r) :
    partsReg umax s.h b a (.pstate (posCtx umax umax) m f c r) = .ok ⟨b, (restRng m f c r).off, (restRng m f c r).len, a⟩ := by
  have hle := (R.core.rng_le h3).1
  simp only [partsReg]
  rw [asSlice_pos (R.core.blen b) hle h1]; rfl

/-- The range of items seen through a handle. -/
theorem handleRange_ok (R : Rel umax s w T) {k : Nat} {x : Handle} {y : Hand} (hk : s.get k = some x)
    (hr : HandRel umax s.h.sk x y) :
    (handleRange umax s.h x = .ok none ∧ w.view y = none) ∨
    ∃ b r, handleRange umax s.h x = .ok (some (b, r.off, r.len)) ∧ w.view y = some (b, r) ∧
      (0 < r.len → s.h.accessible b = true) ∧ (∀ j, r.off ≤ j → j < r.off + r.len → ∃ a, s.h.slot b j = .live a) := by
  have hm := R.tok_mem hk
  have reg : ∀ q : Reg, x.tok umax = .reg q → (0 < q.len → s.h.accessible q.buf = true) ∧
      (∀ j, q.off ≤ j → j < q.off + q.len → ∃ a, s.h.slot q.buf j = .live a) := by
    intro q hq
    rw [hq] at hm
    exact ⟨fun h => R.inv.reg_accessible hm h, fun j h1 h2 => R.inv.reg_live hm h1 h2⟩
  cases hr with
  | shared d i f p hl =>
    obtain ⟨v, _, hd, _, _⟩ := R.inv.strong_live hm
    obtain ⟨r1, r2, r3, r4⟩ := R.data_rng hd hl
    refine .inr ⟨v.buf, ⟨v.off, v.len⟩, ?_, by simp only [World.view, r1, r2], fun h => R.inv.good.data_accessible hd h,
      fun j h1 h2 => R.inv.good.data_items hd h1 h2⟩
    simp only [handleRange, getData_ok hd]; rfl
  | weak d g f p hl => exact .inl ⟨rfl, rfl⟩
  | weakNone g => exact .inl ⟨rfl, rfl⟩
  | uniq r hin => exact .inr ⟨r.buf, ⟨r.off, r.len⟩, rfl, rfl, reg r rfl⟩
  | iter r hin => exact .inr ⟨r.buf, ⟨r.off, r.len⟩, rfl, rfl, reg r rfl⟩
  | parts b a m f c r h1 h2 h3 =>
    refine .inr ⟨b, restRng m f c r, ?_, ?_, reg ⟨b, (restRng m f c r).off, (restRng m f c r).len, a⟩
      (tok_parts (R.core.rng_le h3).2 h1)⟩
    · simp only [handleRange]; rw [partsReg_ok R h1 h3]; rfl
    · simp only [World.view]; rw [win_view h1]

theorem sim_read (R : Rel umax s w T) (k : Nat) : Sim umax s w T (.read k) := by
  rcases R.at_ k with ⟨e1, e2⟩ | ⟨x, y, e1, e2, hr⟩
  · exact .inv R (by simp only [exec, e1]) (by simp only [World.act, e2])
  · rcases handleRange_ok R e1 hr with ⟨h1, h2⟩ | ⟨b, r, h1, h2, h3, h4⟩
    · exact .inv R (by simp only [exec, e1, h1]; rfl) (by simp only [World.act, e2, h2])
    · obtain ⟨h5, _⟩ := readRange_ok h3 h4
      refine .of0 (s' := s) (o := .items (w.look b r)) (w' := w) ?_ ?_ R
      · simp only [exec, e1, h1, bind, Except.bind, h5]; rw [look_eq R.core]; rfl
      · simp only [World.act, e2, h2]

theorem sim_write (R : Rel umax s w T) (k j : Nat) (a : α) : Sim umax s w T (.write k j a) := by
  rcases R.at_ k with ⟨e1, e2⟩ | ⟨x, y, e1, e2, hr⟩
  · exact .inv R (by simp only [exec, e1]) (by simp only [World.act, e2])
  · by_cases hsh : ∃ d i, x = .strong d i
    · obtain ⟨d, i, rfl⟩ := hsh
      cases hr
      exact .inv R (by simp only [exec, e1]) (by simp only [World.act, e2])
    · have hx : exec umax s (.write k j a) = (do
          match ← handleRange umax s.h x with
          | none => pure (s, .invalid, [])
          | some (b, off, len) =>
            if j < len then do
              let h ← writeItem s.h b (off + j) a
              pure ({ s with h }, .done, [])
            else pure (s, .panicked, [])) := by
        simp only [exec, e1]
        split
        · rename_i h; cases h; exact absurd ⟨_, _, rfl⟩ hsh
        · rename_i h; cases h; rfl
        · rename_i h; cases h
      have hy : w.act umax (.write k j a) = match w.view y with
          | none => (w, .invalid)
          | some (b, r) => if j < r.len then (w.store b (r.off + j) (.live a), .done) else (w, .panicked) := by
        simp only [World.act, e2]
        split
        · rename_i h; cases h
          cases hr; exact absurd ⟨_, _, rfl⟩ hsh
        · rename_i h; cases h; rfl
        · rename_i h; cases h
      rcases handleRange_ok R e1 hr with ⟨h1, h2⟩ | ⟨b, r, h1, h2, h3, h4⟩
      · exact .inv R (by rw [hx, h1]; rfl) (by rw [hy, h2])
      · by_cases hj : j < r.len
        · obtain ⟨a0, ha0⟩ := h4 (r.off + j) (by omega) (by omega)
          have hw := writeItem_ok (a' := a) (h3 (by omega)) ha0
          refine .of0 (s' := { s with h := s.h.setSlot b (r.off + j) (.live a) }) (o := .done)
            (w' := w.store b (r.off + j) (.live a)) ?_ ?_ ?_
          · rw [hx, h1]; simp only [bind, Except.bind]; rw [if_pos hj, hw]; rfl
          · rw [hy, h2]; simp only; rw [if_pos hj]
          · exact R.keep (R.inv.write ha0) (.refl _) (R.core.store _ _ _) rfl
        · refine .of0 (s' := s) (o := .panicked) (w' := w) ?_ ?_ R
          · rw [hx, h1]; simp only [bind, Except.bind]; rw [if_neg hj]; rfl
          · rw [hy, h2]; simp only; rw [if_neg hj]

/-! ## Drops -/

theorem perm_mid (t : Tok) (A T : List Tok) : (t :: (A ++ T)).Perm (A ++ (t :: T)) := List.perm_middle.symm

theorem dropWeak_ok {h : Heap α} {o : Option Nat} {g : Nat} (I : Inv h (.weak o g :: T)) :
    ∃ h', h.decW o = .ok h' ∧ Inv h' (.loose g :: T) ∧ h'.sk = h.sk ∧ h'.slot = h.slot := by
  have g0 : Good h (g :: Ss T) (o.toList ++ Ws T) (Gs T) := I.good
  obtain ⟨h', e, g1, ek, es⟩ := g0.decW
  obtain ⟨a1, _⟩ := I.toks _ (List.mem_cons_self ..)
  refine ⟨h', e, ⟨g1, ?_, ?_⟩, ek, es⟩
  · intro t ht
    rw [ek]
    rcases List.mem_cons.1 ht with rfl | ht
    · exact tokOK_loose (by rw [a1]; simp)
    · exact I.toks t (List.mem_cons_of_mem _ ht)
  · rw [ek, es]; exact I.bufs

theorem sim_drop (R : Rel umax s w T) (k : Nat) : Sim umax s w T (.drop k) := by
  rcases R.at_ k with ⟨e1, e2⟩ | ⟨x, y, e1, e2, hr⟩
  · exact .inv R (by simp only [exec, e1]) (by simp only [World.act, e2])
  · have I0 := R.split e1
    have hy : w.act umax (.drop k) = (w.del k, .done) := by simp only [World.act, e2]
    have weak : ∀ d g, x = .weak d g → Sim umax s w T (.drop k) := by
      rintro d g rfl
      obtain ⟨h', e, I', ek, es⟩ := dropWeak_ok I0
      refine .of (s' := { s with h := h' }.del k) (o := .done) (ts := [.dropS g]) ?_ hy
        (R.del (I'.perm (perm_mid ..)) (ek ▸ .refl _) (R.core.same (.of_eq ek es)) rfl)
      simp only [exec, e1, dropHandle, e]; rfl
    cases hr with
    | shared d i f p hl =>
      exact .of (s' := s.del k) (o := .done) (ts := [.dropRcSlice d i]) (by simp only [exec, e1, dropHandle]; rfl) hy
        (R.del (I0.perm (perm_mid ..)) (.refl _) R.core rfl)
    | weak d g f p hl => exact weak _ _ rfl
    | weakNone g => exact weak _ _ rfl
    | uniq r hin =>
      exact .of (s' := s.del k) (o := .done) (ts := [.dropReg r]) (by simp only [exec, e1, dropHandle]; rfl) hy
        (R.del (I0.perm (perm_mid ..)) (.refl _) R.core rfl)
    | iter r hin =>
      exact .of (s' := s.del k) (o := .done) (ts := [.dropReg r]) (by simp only [exec, e1, dropHandle]; rfl) hy
        (R.del (I0.perm (perm_mid ..)) (.refl _) R.core rfl)
    | parts b a m f c r h1 h2 h3 =>
      rw [tok_parts (R.core.rng_le h3).2 h1] at I0
      refine .of (s' := s.del k) (o := .done) (ts := [.dropReg ⟨b, (restRng m f c r).off, (restRng m f c r).len, a⟩]) ?_ hy
        (R.del (I0.perm (perm_mid ..)) (.refl _) R.core rfl)
      simp only [exec, e1, dropHandle]; rw [partsReg_ok R h1 h3]; rfl

/-! ## Iterators -/

theorem HandRel.iter' {k : Skel} {r : Reg} {b : Nat} (hb : r.buf = b) (hin : RngIn k b ⟨r.off, r.len⟩) :
    HandRel umax k (.iter r) (.iter b ⟨r.off, r.len⟩ r.alloc.isSome) := by subst hb; exact .iter r hin

theorem HandRel.uniq' {k : Skel} {r : Reg} {b : Nat} (hb : r.buf = b) (hin : RngIn k b ⟨r.off, r.len⟩) :
    HandRel umax k (.uniq r) (.uniq b ⟨r.off, r.len⟩ r.alloc.isSome) := by subst hb; exact .uniq r hin

theorem sim_intoIter (R : Rel umax s w T) (k : Nat) : Sim umax s w T (.intoIter k) := by
  rcases R.at_ k with ⟨e1, e2⟩ | ⟨x, y, e1, e2, hr⟩
  · exact .inv R (by simp only [exec, e1]) (by simp only [World.act, e2])
  · cases hr with
    | uniq r hin =>
      have I0 : Inv s.h (.reg r :: (tabToks umax (s.hs.set k none) ++ T)) := R.split e1
      exact .of0 (s' := s.put k (.iter r)) (o := .done) (by simp only [exec, e1]) (by simp only [World.act, e2])
        (R.put e1 (x := .iter r) I0 (.refl _) R.core rfl (.iter r hin))
    | _ => exact .inv R (by simp only [exec, e1]) (by simp only [World.act, e2])

/-- An empty range gives up its allocation reference. -/
theorem Inv.release {h : Heap α} {r : Reg} (I : Inv h (.reg r :: T)) (hl : r.len = 0) :
    Inv h (.reg { r with alloc := none } :: (toksOf (r.alloc.toList.map .dropS) ++ T)) := by
  refine ⟨?_, ?_, I.bufs⟩
  · simp only [toksOf_dropS, Ss_cons, Ws_cons, Gs_cons, Ss_append, Ws_append, Gs_append, Ss_loose, Ws_loose, Gs_loose, List.nil_append,
      Tok.S, Tok.W, Tok.G, Option.toList]
    exact I.good
  · intro t ht
    rcases List.mem_cons.1 ht with rfl | ht
    · exact ⟨fun a h => (by cases h), fun h => (by simp only at h; omega)⟩
    · simp only [toksOf_dropS, List.mem_append, List.mem_map, Option.mem_toList] at ht
      rcases ht with ⟨a, ha, rfl⟩ | ht
      · have := (I.toks _ (List.mem_cons_self ..)).1 a ha
        exact tokOK_loose (by rw [I.good.shape.kinds _ _ this]; simp [Node.kind])
      · exact I.toks t (List.mem_cons_of_mem _ ht)

theorem perm_mid2 (t : Tok) (A B T : List Tok) : (t :: (A ++ (B ++ T))).Perm (t :: (B ++ (A ++ T))) := by
  refine List.Perm.cons _ ?_
  rw [← List.append_assoc, ← List.append_assoc]
  exact List.perm_append_comm.append_right T

theorem sim_next (R : Rel umax s w T) (e : End) (k : Nat) : Sim umax s w T (.next e k) := by
  rcases R.at_ k with ⟨e1, e2⟩ | ⟨x, y, e1, e2, hr⟩
  · exact .inv R (by simp only [exec, e1]) (by simp only [World.act, e2])
  · cases hr with
    | iter r hin =>
      have I0 : Inv s.h (.reg r :: (tabToks umax (s.hs.set k none) ++ T)) := R.split e1
      by_cases hl : r.len = 0
      · refine .of (s' := s.put k (.iter { r with alloc := none })) (o := .none) (ts := r.alloc.toList.map .dropS)
          (w' := w.put k (.iter r.buf ⟨r.off, r.len⟩ false)) ?_ ?_ ?_
        · have : iterNext s.h r e = .ok (s.h, none, { r with alloc := none }, r.alloc.toList.map .dropS) := by
            simp only [iterNext]; rw [if_pos hl]
          simp only [exec, e1, this]; rfl
        · simp only [World.act, e2]; rw [if_pos hl]
        · exact R.put e1 (x := .iter { r with alloc := none }) ((I0.release hl).perm (perm_mid2 ..)) (.refl _) R.core rfl
            (.iter { r with alloc := none } hin)
      · -- the item and the rest
        obtain ⟨pos, rest, hpos, hrest⟩ : ∃ (pos : Nat) (rest : Reg), pos = (match e with | .front => r.off | .back => r.off + r.len - 1) ∧
            rest = (match e with
              | .front => ({ r with off := r.off + 1, len := r.len - 1 } : Reg)
              | .back => { r with len := r.len - 1 }) := ⟨_, _, rfl, rfl⟩
        have p1 : r.off ≤ pos ∧ pos < r.off + r.len := by subst hpos; cases e <;> simp only <;> omega
        have b1 : rest.buf = r.buf := by subst hrest; cases e <;> rfl
        have b2 : rest.alloc = r.alloc := by subst hrest; cases e <;> rfl
        have b3 : rest.len = r.len - 1 := by subst hrest; cases e <;> rfl
        have b5 : rest.off + rest.len ≤ r.off + r.len := by subst hrest; cases e <;> simp only <;> omega
        have hacc := I0.reg_accessible (List.mem_cons_self ..) (by omega)
        obtain ⟨a, ha⟩ := I0.reg_live (List.mem_cons_self ..) p1.1 p1.2
        have I1 : Inv (s.h.setSlot r.buf pos .moved) (.reg rest :: (tabToks umax (s.hs.set k none) ++ T)) := by
          refine I0.takeItem rfl p1.1 p1.2 b1 b2 (by omega) ?_
          intro b j
          subst hpos hrest
          cases e <;> simp only [Reg.span, Span.num] <;> grind
        have hin' : RngIn s.h.sk r.buf ⟨rest.off, rest.len⟩ := hin.sub b5
        have hw : w.items r.buf pos = .live a := by rw [R.core.items]; exact ha
        have hact : w.act umax (.next e k) = ((w.store r.buf pos .moved).put k
            (.iter r.buf ⟨rest.off, rest.len⟩ (r.alloc.isSome && decide (0 < rest.len))), .item a) := by
          simp only [World.act, e2]
          rw [if_neg hl]
          cases e <;> (simp only at hpos hrest; subst hpos hrest; rw [hw])
        have hnext : iterNext s.h r e = if rest.len = 0 then
              .ok (s.h.setSlot r.buf pos .moved, some a, { rest with alloc := none }, r.alloc.toList.map .dropS)
            else .ok (s.h.setSlot r.buf pos .moved, some a, rest, []) := by
          simp only [iterNext]
          rw [if_neg hl, hacc]
          cases e <;> (simp only at hpos hrest; subst hpos hrest; rw [ha]; rfl)
        by_cases hr0 : rest.len = 0
        · rw [if_pos hr0] at hnext
          rw [show (r.alloc.isSome && decide (0 < rest.len)) = false by simp [hr0]] at hact
          refine .of (s' := { s with h := s.h.setSlot r.buf pos .moved }.put k (.iter { rest with alloc := none }))
            (o := .item a) (ts := r.alloc.toList.map .dropS) ?_ hact ?_
          · simp only [exec, e1, hnext]; rfl
          · have I2 := I1.release hr0
            rw [b2] at I2
            exact R.put e1 (x := .iter { rest with alloc := none }) (I2.perm (perm_mid2 ..)) (.refl _) (R.core.store _ _ _) rfl
              (.iter' b1 hin')
        · rw [if_neg hr0] at hnext
          rw [show (r.alloc.isSome && decide (0 < rest.len)) = rest.alloc.isSome by
            rw [b2]; simp; intro _; omega] at hact
          refine .of0 (s' := { s with h := s.h.setSlot r.buf pos .moved }.put k (.iter rest)) (o := .item a) ?_ hact ?_
          · simp only [exec, e1, hnext]; rfl
          · exact R.put e1 (x := .iter rest) I1 (.refl _) (R.core.store _ _ _) rfl (.iter' b1 hin')
    | _ => exact .inv R (by simp only [exec, e1]) (by simp only [World.act, e2])

/-- Splitting an iterator. -/
theorem iterSplit_ok (R : Rel umax s w T) {k : Nat} {r r1 r2 : Reg} (e1 : s.get k = some (.iter r))
    (hin : RngIn s.h.sk r.buf ⟨r.off, r.len⟩) (hb1 : r1.buf = r.buf) (hb2 : r2.buf = r.buf)
    (hsp : ∀ b j, r1.span.num b j + r2.span.num b j = r.span.num b j) (ha : r2.alloc = r.alloc)
    (hl1 : r1.len ≤ r.len) (hl2 : r2.len ≤ r.len) (hi1 : r1.off + r1.len ≤ r.off + r.len) (hi2 : r2.off + r2.len ≤ r.off + r.len) :
    ∃ h' n t, iterSplit s.h r1 r2 = .ok (h', n, t) ∧
      Rel umax (({ s with h := h' }.put k (.iter t)).push (.iter n))
        ((w.put k (.iter r.buf ⟨r2.off, r2.len⟩ (World.splitHolds r.alloc.isSome r1.len r2.len).2)).push
          (.iter r.buf ⟨r1.off, r1.len⟩ (World.splitHolds r.alloc.isSome r1.len r2.len).1)) T := by
  have I0 : Inv s.h (.reg r :: (tabToks umax (s.hs.set k none) ++ T)) := R.split e1
  obtain ⟨h', a, b, e, I', ek, es, hh⟩ := splitAlloc_ok I0 hb1 hb2 hsp hl1 hl2
  refine ⟨h', { r1 with alloc := a }, { r2 with alloc := b }, ?_, ?_⟩
  · simp only [iterSplit]; rw [ha, e]; rfl
  · rw [← hh]
    exact R.putPush e1 (x := .iter { r2 with alloc := b }) (x' := .iter { r1 with alloc := a }) I' (ek ▸ .refl _)
      (R.core.same (.of_eq ek es)) rfl (.iter' hb2 (by rw [ek]; exact hin.sub hi2)) (.iter' hb1 (by rw [ek]; exact hin.sub hi1))

theorem sim_splitOffFrom (R : Rel umax s w T) (k n : Nat) : Sim umax s w T (.splitOffFrom k n) := by
  rcases R.at_ k with ⟨e1, e2⟩ | ⟨x, y, e1, e2, hr⟩
  · exact .inv R (by simp only [exec, e1]) (by simp only [World.act, e2])
  · cases hr with
    | iter r hin =>
      by_cases hn : n ≤ r.len
      · obtain ⟨h', a, b, e, R'⟩ := iterSplit_ok R e1 (r1 := { r with off := r.off + n, len := r.len - n })
          (r2 := { r with len := n }) hin rfl rfl
          (fun x j => by rw [Nat.add_comm]; exact num_split' r.buf r.off n r.len x j hn) rfl (Nat.sub_le _ _) hn
          (by simp only; omega) (by simp only; omega)
        refine .of0 (o := .handle) ?_ ?_ R'
        · simp only [exec, e1]; rw [if_pos hn, e]; rfl
        · simp only [World.act, e2]; rw [if_pos hn]
      · refine .of0 (s' := s) (o := .panicked) (w' := w) ?_ ?_ R
        · simp only [exec, e1]; rw [if_neg hn]
        · simp only [World.act, e2]; rw [if_neg hn]
    | _ => exact .inv R (by simp only [exec, e1]) (by simp only [World.act, e2])

theorem sim_splitOffTo (R : Rel umax s w T) (k n : Nat) : Sim umax s w T (.splitOffTo k n) := by
  rcases R.at_ k with ⟨e1, e2⟩ | ⟨x, y, e1, e2, hr⟩
  · exact .inv R (by simp only [exec, e1]) (by simp only [World.act, e2])
  · cases hr with
    | iter r hin =>
      by_cases hn : n ≤ r.len
      · obtain ⟨h', a, b, e, R'⟩ := iterSplit_ok R e1 (r1 := { r with len := n })
          (r2 := { r with off := r.off + n, len := r.len - n }) hin rfl rfl
          (fun x j => num_split' r.buf r.off n r.len x j hn) rfl hn (Nat.sub_le _ _)
          (by simp only; omega) (by simp only; omega)
        refine .of0 (o := .handle) ?_ ?_ R'
        · simp only [exec, e1]; rw [if_pos hn, e]; rfl
        · simp only [World.act, e2]; rw [if_pos hn]
      · refine .of0 (s' := s) (o := .panicked) (w' := w) ?_ ?_ R
        · simp only [exec, e1]; rw [if_neg hn]
        · simp only [World.act, e2]; rw [if_neg hn]
    | _ => exact .inv R (by simp only [exec, e1]) (by simp only [World.act, e2])

end

end Verif.Rc
