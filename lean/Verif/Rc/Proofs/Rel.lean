import Verif.Rc.Proofs.Ops
import Verif.Rc.Machine
import Verif.Proofs.MutParts
/-!
# Handles of the code and handles of the specification
-/

namespace Verif.Rc
open Verif.Spec (Side Slot Family Rng Hand World)
variable {α : Type}

/-- What a handle refers to. -/
def Handle.tok (umax : Nat) : Handle → Tok
  | .strong d i => .strong d i
  | .weak d g => .weak d g
  | .uniq r => .reg r
  | .iter r => .reg r
  | .parts b a it =>
    match it.asSlice (posCtx umax umax) 0 with
    | .ok s => .reg ⟨b, s.ptr, s.len, a⟩
    | .error _ => .reg ⟨b, 0, 0, a⟩

/-- What all handles refer to. -/
def tabToks (umax : Nat) (hs : List (Option Handle)) : List Tok := hs.filterMap (Option.map (Handle.tok umax))

theorem mem_tabToks {umax : Nat} {hs : List (Option Handle)} {t : Tok} :
    t ∈ tabToks umax hs ↔ ∃ (k : Nat) (x : Handle), hs[k]?.join = some x ∧ x.tok umax = t := by
  simp only [tabToks, List.mem_filterMap, Option.map_eq_some_iff]
  constructor
  · rintro ⟨o, ho, x, rfl, hx⟩
    obtain ⟨k, hk⟩ := List.mem_iff_getElem?.1 ho
    exact ⟨k, x, by rw [hk]; rfl, hx⟩
  · rintro ⟨k, x, hk, hx⟩
    cases h : hs[k]? with
    | none => rw [h] at hk; cases hk
    | some o =>
      rw [h] at hk
      exact ⟨o, List.mem_iff_getElem?.2 ⟨k, h⟩, x, hk, hx⟩

theorem tabToks_quiet (umax : Nat) (hs : List (Option Handle)) : Quiet (tabToks umax hs) := by
  intro y hy
  obtain ⟨k, x, _, hx⟩ := mem_tabToks.1 hy
  cases x with
  | parts b a it => simp only [Handle.tok] at hx; split at hx <;> cases hx
  | _ => cases hx

theorem tabToks_push (umax : Nat) (hs : List (Option Handle)) (x : Handle) :
    (tabToks umax (hs ++ [some x])).Perm (x.tok umax :: tabToks umax hs) := by
  rw [tabToks, List.filterMap_append]
  exact List.perm_append_comm

theorem tabToks_get {umax : Nat} : ∀ {hs : List (Option Handle)} {k : Nat} {x : Handle}, hs[k]?.join = some x →
    (tabToks umax hs).Perm (x.tok umax :: tabToks umax (hs.set k none)) := by
  intro hs
  induction hs with
  | nil => intro k x h; simp at h
  | cons o hs ih =>
    intro k x h
    cases k with
    | zero =>
      simp only [List.getElem?_cons_zero, Option.join_some] at h
      subst h
      exact .refl _
    | succ k =>
      simp only [List.getElem?_cons_succ] at h
      have := ih h
      cases o with
      | none => exact this
      | some z =>
        show (z.tok umax :: tabToks umax hs).Perm (x.tok umax :: z.tok umax :: tabToks umax (hs.set k none))
        exact (this.cons _).trans (List.Perm.swap ..)

theorem tabToks_put {umax : Nat} {hs : List (Option Handle)} {k : Nat} {x : Handle} (h : hs[k]?.join = some x) (y : Handle) :
    (tabToks umax (hs.set k (some y))).Perm (y.tok umax :: tabToks umax (hs.set k none)) := by
  have hk : k < hs.length := by
    apply Nat.lt_of_not_le; intro hle
    rw [List.getElem?_eq_none hle] at h; cases h
  have := tabToks_get (umax := umax) (hs := hs.set k (some y)) (k := k) (x := y) (by simp [hk])
  rwa [List.set_set] at this

/-- A range of items of a buffer. -/
def RngIn (k : Skel) (b : Nat) (r : Rng) : Prop := (b < k.nbuf ∧ r.off + r.len ≤ k.blen b) ∨ r.off + r.len = 0

theorem RngIn.grow {k k' : Skel} (g : Grow k k') {b : Nat} {r : Rng} (h : RngIn k b r) : RngIn k' b r := by
  rcases h with ⟨h1, h2⟩ | h
  · exact .inl ⟨Nat.lt_of_lt_of_le h1 g.nbuf, by rw [g.blen b h1]; exact h2⟩
  · exact .inr h

theorem RngIn.sub {k : Skel} {b : Nat} {r r' : Rng} (h : RngIn k b r) (h2 : r'.off + r'.len ≤ r.off + r.len) : RngIn k b r' := by
  rcases h with ⟨h1, h3⟩ | h
  · exact .inl ⟨h1, by omega⟩
  · exact .inr (by omega)

/-- The handle of the code and the handle of the specification mean the same. -/
inductive HandRel (umax : Nat) (k : Skel) : Handle → Hand → Prop
  | shared (d i f : Nat) (p : List Side) : k.lab d = ⟨f, p⟩ → HandRel umax k (.strong d i) (.shared f p)
  | weak (d g f : Nat) (p : List Side) : k.lab d = ⟨f, p⟩ → HandRel umax k (.weak (some d) g) (.weak f p)
  | weakNone (g : Nat) : HandRel umax k (.weak none g) .weakNone
  | uniq (r : Reg) : RngIn k r.buf ⟨r.off, r.len⟩ → HandRel umax k (.uniq r) (.uniq r.buf ⟨r.off, r.len⟩ r.alloc.isSome)
  | iter (r : Reg) : RngIn k r.buf ⟨r.off, r.len⟩ → HandRel umax k (.iter r) (.iter r.buf ⟨r.off, r.len⟩ r.alloc.isSome)
  | parts (b : Nat) (a : Option Nat) (m f c : Nat) (r : Rng) : f + c ≤ 2 ^ m → 2 ^ m ≤ umax → RngIn k b r →
      HandRel umax k (.parts b a (.pstate (posCtx umax umax) m f c r)) (.parts b (win (rparts m r) f c) a.isSome)

/-- Two tables mean the same. -/
structure Tab (umax : Nat) (k : Skel) (hs : List (Option Handle)) (ws : List (Option Hand)) : Prop where
  len : hs.length = ws.length
  at_ : ∀ j : Nat, (hs[j]?.join = none ∧ ws[j]?.join = none) ∨ ∃ x y, hs[j]?.join = some x ∧ ws[j]?.join = some y ∧ HandRel umax k x y

section
variable {umax : Nat} {k : Skel} {hs : List (Option Handle)} {ws : List (Option Hand)}

theorem Tab.push (t : Tab umax k hs ws) {x : Handle} {y : Hand} (h : HandRel umax k x y) :
    Tab umax k (hs ++ [some x]) (ws ++ [some y]) where
  len := by simp [t.len]
  at_ j := by
    rcases Nat.lt_trichotomy j hs.length with h1 | h1 | h1
    · rw [List.getElem?_append_left h1, List.getElem?_append_left (t.len ▸ h1)]; exact t.at_ j
    · refine .inr ⟨x, y, ?_, ?_, h⟩
      · subst h1; simp
      · rw [h1, t.len]; simp
    · refine .inl ⟨?_, ?_⟩
      · rw [List.getElem?_eq_none (by simp; omega)]; rfl
      · rw [List.getElem?_eq_none (by have := t.len; simp; omega)]; rfl

theorem Tab.put (t : Tab umax k hs ws) {x : Handle} {y : Hand} (i : Nat) (h : HandRel umax k x y) :
    Tab umax k (hs.set i (some x)) (ws.set i (some y)) where
  len := by simp [t.len]
  at_ j := by
    by_cases e : j = i
    · subst e
      by_cases h1 : j < hs.length
      · exact .inr ⟨x, y, by simp [h1], by simp [t.len ▸ h1], h⟩
      · refine .inl ⟨?_, ?_⟩
        · rw [List.getElem?_eq_none (by simp; omega)]; rfl
        · rw [List.getElem?_eq_none (by have := t.len; simp; omega)]; rfl
    · rw [List.getElem?_set_ne (Ne.symm e), List.getElem?_set_ne (Ne.symm e)]; exact t.at_ j

theorem Tab.del (t : Tab umax k hs ws) (i : Nat) : Tab umax k (hs.set i none) (ws.set i none) where
  len := by simp [t.len]
  at_ j := by
    by_cases e : j = i
    · subst e
      refine .inl ⟨?_, ?_⟩
      · by_cases h1 : j < hs.length
        · simp [h1]
        · rw [List.getElem?_eq_none (by simp; omega)]; rfl
      · by_cases h1 : j < ws.length
        · simp [h1]
        · rw [List.getElem?_eq_none (by simp; omega)]; rfl
    · rw [List.getElem?_set_ne (Ne.symm e), List.getElem?_set_ne (Ne.symm e)]; exact t.at_ j

/-- A test on handles. -/
theorem Tab.any (t : Tab umax k hs ws) {Q : Handle → Prop} {f : Hand → Bool}
    (hq : ∀ (j : Nat) x y, hs[j]?.join = some x → HandRel umax k x y → (Q x ↔ f y = true)) :
    (∃ (j : Nat) (x : Handle), hs[j]?.join = some x ∧ Q x) ↔ ws.any (fun o => o.any f) = true := by
  rw [List.any_eq_true]
  constructor
  · rintro ⟨j, x, h1, h2⟩
    rcases t.at_ j with ⟨e, _⟩ | ⟨x', y, e1, e2, hr⟩
    · rw [h1] at e; cases e
    · rw [h1] at e1; cases e1
      cases h3 : ws[j]? with
      | none => rw [h3] at e2; cases e2
      | some o =>
        rw [h3] at e2
        simp only [Option.join_some] at e2; subst e2
        exact ⟨some y, List.mem_iff_getElem?.2 ⟨j, h3⟩, by simpa using (hq j x y h1 hr).1 h2⟩
  · rintro ⟨o, ho, hf⟩
    obtain ⟨j, hj⟩ := List.mem_iff_getElem?.1 ho
    cases o with
    | none => cases hf
    | some y =>
      rcases t.at_ j with ⟨_, e⟩ | ⟨x, y', e1, e2, hr⟩
      · rw [hj] at e; cases e
      · rw [hj] at e2; cases e2
        exact ⟨j, x, e1, (hq j x y e1 hr).2 (by simpa using hf)⟩

end

/-- The tables survive growth. -/
theorem Tab.grow {umax : Nat} {h : Heap α} {k' : Skel} {T : List Tok} {hs : List (Option Handle)} {ws : List (Option Hand)}
    (t : Tab umax h.sk hs ws) (I : Inv h (tabToks umax hs ++ T)) (g : Grow h.sk k') : Tab umax k' hs ws where
  len := t.len
  at_ j := by
    rcases t.at_ j with e | ⟨x, y, e1, e2, hr⟩
    · exact .inl e
    · refine .inr ⟨x, y, e1, e2, ?_⟩
      have ht : x.tok umax ∈ tabToks umax hs ++ T := List.mem_append_left _ (mem_tabToks.2 ⟨j, x, e1, rfl⟩)
      cases hr with
      | shared d i f p hl =>
        refine .shared d i f p ?_
        rw [g.lab d (I.lt_of_tok (mem_Ss ht (by simp [Handle.tok, Tok.S])))]; exact hl
      | weak d g' f p hl =>
        refine .weak d g' f p ?_
        rw [g.lab d ((I.toks _ ht).2.2 d rfl).2.1]; exact hl
      | weakNone g' => exact .weakNone g'
      | uniq r hin => exact .uniq r (hin.grow g)
      | iter r hin => exact .iter r (hin.grow g)
      | parts b a m f c r h1 h2 h3 => exact .parts b a m f c r h1 h2 (h3.grow g)

/-- Heap and world agree, apart from the handles. -/
structure Core (umax : Nat) (h : Heap α) (w : World α) : Prop where
  zst : w.zst = h.sk.zst
  nbuf : w.nbuf = h.sk.nbuf
  items : w.items = h.slot
  mem : w.mem = h.sk.mem
  nfam : w.fams.length = h.sk.nfam
  fams : ∀ f, f < h.sk.nfam → w.fam f = h.sk.fams f
  famIn : ∀ f, f < h.sk.nfam → RngIn h.sk (h.sk.fams f).buf (h.sk.fams f).rng
  blen : ∀ b, h.sk.blen b ≤ umax

/-- The state of the code and the state of the specification mean the same. -/
structure Rel (umax : Nat) (s : State α) (w : World α) (T : List Tok) : Prop where
  inv : Inv s.h (tabToks umax s.hs ++ T)
  core : Core umax s.h w
  tab : Tab umax s.h.sk s.hs w.hs

/-! ## What handles refer to -/

section
variable {umax : Nat}

theorem posCtx_valid {cnt : Nat} (h : cnt ≤ umax) : (posCtx umax cnt).Valid := ⟨by simp [posCtx, h], h⟩

/-- The items an iterator over parts still has. -/
theorem asSlice_pos {cnt m f c : Nat} {r : Rng} (hc : cnt ≤ umax) (hr : r.off + r.len ≤ cnt) (h : f + c ≤ 2 ^ m) :
    (SliceItemsParts.pstate (posCtx umax umax) m f c r).asSlice (posCtx umax cnt) 0 =
      .ok ⟨if f + c = 2 ^ m then 0 else cut m f r, cut m (2 ^ m - c) r - cut m f r⟩ := by
  have := SliceItemsParts.asSlice_pstate (posCtx umax cnt) (posCtx_valid hc) 0 m f c r hr h
  have e : SliceItemsParts.pstate (posCtx umax umax) m f c r = SliceItemsParts.pstate (posCtx umax cnt) m f c r := rfl
  rw [e, this]
  simp [posCtx]

/-- The first item and the number of items of the parts left. -/
def restRng (m f c : Nat) (r : Rng) : Rng := ⟨if f + c = 2 ^ m then 0 else cut m f r, cut m (2 ^ m - c) r - cut m f r⟩

theorem restRng_le {m f c : Nat} {r : Rng} : (restRng m f c r).off + (restRng m f c r).len ≤ r.off + r.len := by
  have h1 := cut_bounds m f r
  have h2 := cut_bounds m (2 ^ m - c) r
  unfold restRng; simp only; split <;> omega

theorem tok_parts {b : Nat} {a : Option Nat} {m f c : Nat} {r : Rng} (hr : r.off + r.len ≤ umax) (h : f + c ≤ 2 ^ m) :
    (Handle.parts b a (.pstate (posCtx umax umax) m f c r)).tok umax =
      .reg ⟨b, (restRng m f c r).off, (restRng m f c r).len, a⟩ := by
  simp only [Handle.tok, asSlice_pos (Nat.le_refl _) hr h]; rfl

theorem win_view {m f c : Nat} {r : Rng} (h : f + c ≤ 2 ^ m) :
    Rng.mk (((win (rparts m r) f c).head?.map Rng.off).getD 0) (World.total (win (rparts m r) f c)) = restRng m f c r := by
  have ht := win_tiles m f c r h
  have h1 := ht.sum
  simp only [World.total, h1, restRng, Rng.mk.injEq, and_true]
  by_cases e : f + c = 2 ^ m
  · rw [win_done _ (by rw [parts_length]; omega), if_pos e]; rfl
  · rw [win_head _ (by rw [parts_length]; omega), rparts_get _ _ _ (by omega), if_neg e]; rfl

theorem _root_.Verif.Tiles.any_has {xs : List Rng} {a e : Nat} (h : Tiles xs a e) (i : Nat) :
    xs.any (·.has i) = true ↔ a ≤ i ∧ i < e := by
  induction xs generalizing a with
  | nil => simp only [Tiles] at h; subst h; simp
  | cons x xs ih =>
    obtain ⟨h1, h2⟩ := h
    have h3 := h2.items.2
    rw [List.any_cons, Bool.or_eq_true, ih h2]
    simp only [Rng.has, Bool.and_eq_true, decide_eq_true_eq]; omega

theorem win_has {m f c : Nat} {r : Rng} (h : f + c ≤ 2 ^ m) (i : Nat) :
    (win (rparts m r) f c).any (·.has i) = (restRng m f c r).has i := by
  have ht := (win_tiles m f c r h).any_has i
  have hm := cut_mono m r (f := f) (g := 2 ^ m - c) (by omega)
  rw [Bool.eq_iff_iff, ht]
  simp only [Rng.has, Bool.and_eq_true, decide_eq_true_eq]
  simp only [restRng]
  by_cases e : f + c = 2 ^ m
  · have : 2 ^ m - c = f := by omega
    rw [this, if_pos e]; omega
  · rw [if_neg e]; omega

end

section
variable {umax : Nat} {s : State α} {w : World α} {T : List Tok}

theorem Core.rng_le {h : Heap α} (c : Core umax h w) {b : Nat} {r : Rng} (hr : RngIn h.sk b r) :
    r.off + r.len ≤ h.sk.blen b ∧ r.off + r.len ≤ umax := by
  have := c.blen b
  rcases hr with ⟨_, h⟩ | h <;> omega

/-- The handle at `k` and the others. -/
theorem Rel.split (R : Rel umax s w T) {k : Nat} {x : Handle} (hk : s.get k = some x) :
    Inv s.h (x.tok umax :: (tabToks umax (s.hs.set k none) ++ T)) :=
  R.inv.perm ((tabToks_get hk).append_right T)

theorem Rel.at_ (R : Rel umax s w T) (k : Nat) :
    (s.get k = none ∧ w.get k = none) ∨ ∃ x y, s.get k = some x ∧ w.get k = some y ∧ HandRel umax s.h.sk x y := R.tab.at_ k

theorem Rel.tok_mem (_R : Rel umax s w T) {k : Nat} {x : Handle} (hk : s.get k = some x) :
    x.tok umax ∈ tabToks umax s.hs ++ T := List.mem_append_left _ (mem_tabToks.2 ⟨k, x, hk, rfl⟩)

/-- The range of a member of a family. -/
theorem Rel.data_rng (R : Rel umax s w T) {d : Nat} {v : DataV} {f : Nat} {p : List Side} (hd : s.h.sk.node d = some (.data v))
    (hl : s.h.sk.lab d = ⟨f, p⟩) :
    (w.fam f).buf = v.buf ∧ w.rangeOf f p = ⟨v.off, v.len⟩ ∧ w.holdsOf f p = v.alloc.isSome ∧
      RngIn s.h.sk v.buf ⟨v.off, v.len⟩ := by
  obtain ⟨a1, a2, a3⟩ := R.inv.good.shape.dataFam d v hd
  have hf := R.inv.good.shape.famLt d (R.inv.good.ledger.lt hd) (by rw [R.inv.good.shape.kinds _ _ hd]; simp [Node.kind])
  rw [hl] at a1 a2 a3 hf
  simp only at a1 a2 a3 hf
  have e := R.core.fams f hf
  have er : w.rangeOf f p = ⟨v.off, v.len⟩ := by simp only [World.rangeOf]; rw [e, a2]
  refine ⟨by rw [e, a1], er, ?_, ?_⟩
  · simp only [World.holdsOf, er]; rw [e, a3]
  · have h1 := R.core.famIn f hf
    rw [← a1] at h1
    refine h1.sub ?_
    have := at_sub (r := (s.h.sk.fams f).rng) [] p
    rw [List.append_nil, ← a2] at this
    exact this.2

end

end Verif.Rc
