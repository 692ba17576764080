import Verif.Rc.Proofs.Rel
import Verif.Spec.Reentrant
/-!
# Every call does what the specification says
-/

namespace Verif.Rc
open Verif.Spec (Side Slot Family Rng Hand World Op Obs End)
variable {α : Type}

section
variable {umax : Nat} {s : State α} {w w' : World α} {T T' : List Tok}

/-! ## Heap and world -/

theorem Core.grow {h h' : Heap α} (c : Core umax h w) (g : Grow h.sk h'.sk) (hb : h'.sk.nbuf = h.sk.nbuf)
    (hf : h'.sk.nfam = h.sk.nfam) (hm : h'.sk.mem = h.sk.mem) (hs : h'.slot = h.slot) : Core umax h' w where
  zst := by rw [g.zst]; exact c.zst
  nbuf := by rw [hb]; exact c.nbuf
  items := by rw [hs]; exact c.items
  mem := by rw [hm]; exact c.mem
  nfam := by rw [hf]; exact c.nfam
  fams f h := by rw [g.fams f (hf ▸ h)]; exact c.fams f (hf ▸ h)
  famIn f h := by rw [g.fams f (hf ▸ h)]; exact (c.famIn f (hf ▸ h)).grow g
  blen b := by
    by_cases h1 : b < h.sk.nbuf
    · rw [g.blen b h1]; exact c.blen b
    · rw [g.blenHi b (by omega)]; exact c.blen b

theorem Core.same {h h' : Heap α} (c : Core umax h w) (x : Same h h') : Core umax h' w :=
  c.grow x.toGrow x.nbufEq x.nfamEq x.memEq x.slot

theorem Pruned.grow {P : Lab → Prop} {h h' : Heap α} (p : Pruned P h h') : Grow h.sk h'.sk := by
  rw [p.sk]
  exact ⟨rfl, Nat.le_refl _, Nat.le_refl _, Nat.le_refl _, fun _ _ => rfl, fun _ _ => rfl, fun _ _ => rfl, fun _ _ => rfl, fun _ _ => rfl⟩

theorem Shrink.grow {h h' : Heap α} (p : Shrink h h') : Grow h.sk h'.sk := by
  rw [p.sk]
  exact ⟨rfl, Nat.le_refl _, Nat.le_refl _, Nat.le_refl _, fun _ _ => rfl, fun _ _ => rfl, fun _ _ => rfl, fun _ _ => rfl, fun _ _ => rfl⟩

theorem Core.pruned {P : Lab → Prop} {h h' : Heap α} (c : Core umax h w) (p : Pruned P h h') : Core umax h' w :=
  c.grow p.grow p.nbuf p.nfam p.mem p.slot

theorem Core.hs {h : Heap α} (c : Core umax h w) (e : w' = { w with hs := w'.hs }) : Core umax h w' := by
  rw [e]; exact ⟨c.zst, c.nbuf, c.items, c.mem, c.nfam, c.fams, c.famIn, c.blen⟩

theorem Core.store {h : Heap α} (c : Core umax h w) (b i : Nat) (x : Slot α) : Core umax (h.setSlot b i x) (w.store b i x) where
  zst := c.zst
  nbuf := c.nbuf
  items := by
    funext b' i'
    rw [setSlot_slot]
    show (if b' = b ∧ i' = i then x else w.items b' i') = _
    rw [c.items]
  mem := c.mem
  nfam := c.nfam
  fams := c.fams
  famIn := c.famIn
  blen := c.blen

/-- A family begins. -/
theorem Core.newFam {h0 h' : Heap α} (c : Core umax h0 w) (g : Grow h0.sk h'.sk) (hb : h'.sk.nbuf = h0.sk.nbuf)
    {F : Family} (hf : h'.sk.nfam = h0.sk.nfam + 1) (hF : h'.sk.fams h0.sk.nfam = F) (hin : RngIn h0.sk F.buf F.rng)
    (hm : h'.sk.mem = h0.sk.mem) (hs : h'.slot = h0.slot) : Core umax h' (w.newFam F) where
  zst := by rw [g.zst]; exact c.zst
  nbuf := by rw [hb]; exact c.nbuf
  items := by rw [hs]; exact c.items
  mem := by rw [hm]; exact c.mem
  nfam := by rw [hf, ← c.nfam]; simp [World.newFam]
  fams f h := by
    by_cases h1 : f < h0.sk.nfam
    · rw [g.fams f h1, ← c.fams f h1]
      simp only [World.fam, World.newFam, List.getD]
      rw [List.getElem?_append_left (by rw [c.nfam]; exact h1)]
    · have : f = h0.sk.nfam := by omega
      subst this
      rw [hF]
      simp only [World.fam, World.newFam, List.getD]
      rw [← c.nfam]; simp
  famIn f h := by
    by_cases h1 : f < h0.sk.nfam
    · rw [g.fams f h1]; exact (c.famIn f h1).grow g
    · have : f = h0.sk.nfam := by omega
      subst this
      rw [hF]; exact hin.grow g
  blen b := by
    by_cases h1 : b < h0.sk.nbuf
    · rw [g.blen b h1]; exact c.blen b
    · rw [g.blenHi b (by omega)]; exact c.blen b


/-- A box enters. -/
theorem Core.newBuf {h0 h' : Heap α} (c : Core umax h0 w) (g : Grow h0.sk h'.sk) {xs : List α} (hl : xs.length ≤ umax)
    (hb : h'.sk.nbuf = h0.sk.nbuf + 1) (hf : h'.sk.nfam = h0.sk.nfam) (hm : h'.sk.mem = upd h0.sk.mem h0.sk.nbuf (!h0.sk.zst && !xs.isEmpty))
    (hs : h'.slot = upd h0.slot h0.sk.nbuf (boxSlot xs)) (hbl : h'.sk.blen h0.sk.nbuf = xs.length) : Core umax h' (w.newBuf xs) where
  zst := by rw [g.zst]; exact c.zst
  nbuf := by rw [hb, ← c.nbuf]; rfl
  items := by
    rw [hs]; funext b i
    simp only [World.newBuf, upd, c.nbuf, c.items]
    split <;> rfl
  mem := by
    rw [hm]; funext b
    simp only [World.newBuf, upd, c.nbuf, c.mem, c.zst]
  nfam := by rw [hf]; exact c.nfam
  fams f h := by rw [g.fams f (hf ▸ h)]; exact c.fams f (hf ▸ h)
  famIn f h := by rw [g.fams f (hf ▸ h)]; exact (c.famIn f (hf ▸ h)).grow g
  blen b := by
    rcases Nat.lt_trichotomy b h0.sk.nbuf with h1 | h1 | h1
    · rw [g.blen b h1]; exact c.blen b
    · rw [h1, hbl]; exact hl
    · rw [g.blenHi b (by omega)]; exact c.blen b

/-! ## Tables -/

theorem Rel.keep (R : Rel umax s w T) {h' : Heap α} (I : Inv h' (tabToks umax s.hs ++ T')) (g : Grow s.h.sk h'.sk)
    (c : Core umax h' w') (e : w'.hs = w.hs) : Rel umax { s with h := h' } w' T' :=
  ⟨I, c, by rw [e]; exact R.tab.grow R.inv g⟩

theorem Rel.push (R : Rel umax s w T) {h' : Heap α} {x : Handle} {y : Hand}
    (I : Inv h' (x.tok umax :: (tabToks umax s.hs ++ T'))) (g : Grow s.h.sk h'.sk)
    (c : Core umax h' w') (e : w'.hs = w.hs) (hr : HandRel umax h'.sk x y) :
    Rel umax ({ s with h := h' }.push x) (w'.push y) T' where
  inv := I.perm ((tabToks_push umax s.hs x).symm.append_right T')
  core := c.hs rfl
  tab := by
    show Tab umax h'.sk (s.hs ++ [some x]) (w'.hs ++ [some y])
    rw [e]; exact (R.tab.grow R.inv g).push hr

theorem Rel.put (R : Rel umax s w T) {h' : Heap α} {k : Nat} {x0 x : Handle} {y : Hand} (hk : s.get k = some x0)
    (I : Inv h' (x.tok umax :: (tabToks umax (s.hs.set k none) ++ T'))) (g : Grow s.h.sk h'.sk)
    (c : Core umax h' w') (e : w'.hs = w.hs) (hr : HandRel umax h'.sk x y) :
    Rel umax ({ s with h := h' }.put k x) (w'.put k y) T' where
  inv := I.perm ((tabToks_put hk x).symm.append_right T')
  core := c.hs rfl
  tab := by
    show Tab umax h'.sk (s.hs.set k (some x)) (w'.hs.set k (some y))
    rw [e]; exact (R.tab.grow R.inv g).put k hr

theorem Rel.putPush (R : Rel umax s w T) {h' : Heap α} {k : Nat} {x0 x x' : Handle} {y y' : Hand} (hk : s.get k = some x0)
    (I : Inv h' (x'.tok umax :: x.tok umax :: (tabToks umax (s.hs.set k none) ++ T'))) (g : Grow s.h.sk h'.sk)
    (c : Core umax h' w') (e : w'.hs = w.hs) (hr : HandRel umax h'.sk x y) (hr' : HandRel umax h'.sk x' y') :
    Rel umax (({ s with h := h' }.put k x).push x') ((w'.put k y).push y') T' where
  inv := I.perm (((((tabToks_put hk x).symm.append_right T').cons (x'.tok umax))).trans
    ((tabToks_push umax (s.hs.set k (some x)) x').symm.append_right T'))
  core := c.hs rfl
  tab := by
    show Tab umax h'.sk (s.hs.set k (some x) ++ [some x']) (w'.hs.set k (some y) ++ [some y'])
    rw [e]; exact ((R.tab.grow R.inv g).put k hr).push hr'

theorem Rel.del (R : Rel umax s w T) {h' : Heap α} {k : Nat}
    (I : Inv h' (tabToks umax (s.hs.set k none) ++ T')) (g : Grow s.h.sk h'.sk)
    (c : Core umax h' w') (e : w'.hs = w.hs) : Rel umax ({ s with h := h' }.del k) (w'.del k) T' where
  inv := I
  core := c.hs rfl
  tab := by
    show Tab umax h'.sk (s.hs.set k none) (w'.hs.set k none)
    rw [e]; exact (R.tab.grow R.inv g).del k

/-- A call of the code and a call of the specification. -/
def Sim (umax : Nat) (s : State α) (w : World α) (T : List Tok) (op : Op α) : Prop :=
  ∃ s' o ts w', exec umax s op = .ok (s', o, ts) ∧ Rel umax s' w' (toksOf ts ++ T) ∧ w.may umax op (w', o) ∧
    (T = [] → (w', o) = w.act umax op)

theorem Sim.of {op : Op α} {s' : State α} {o : Obs α} {ts : List Task} (h1 : exec umax s op = .ok (s', o, ts))
    (h2 : w.act umax op = (w', o)) (R : Rel umax s' w' (toksOf ts ++ T)) : Sim umax s w T op :=
  ⟨s', o, ts, w', h1, R, .inl h2.symm, fun _ => h2.symm⟩

/-- A call that drops nothing. -/
theorem Sim.of0 {op : Op α} {s' : State α} {o : Obs α} (h1 : exec umax s op = .ok (s', o, []))
    (h2 : w.act umax op = (w', o)) (R : Rel umax s' w' T) : Sim umax s w T op := .of h1 h2 R

theorem Sim.inv {op : Op α} (R : Rel umax s w T) (h1 : exec umax s op = .ok (s, .invalid, []))
    (h2 : w.act umax op = (w, .invalid)) : Sim umax s w T op := .of h1 h2 R

/-- A call that does nothing. -/
theorem Sim.id {op : Op α} {o : Obs α} (R : Rel umax s w T) (h1 : exec umax s op = .ok (s, o, []))
    (h2 : w.act umax op = (w, o)) : Sim umax s w T op := .of h1 h2 R

end

end Verif.Rc
