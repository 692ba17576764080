import Verif.Spec.ArcWorld
import Verif.Arc.Proofs.SeqAlive
/-!
# A single thread and the specification

The relation between the state of a program that uses `ArcSlice` from one thread and the
state of the specification, and what it takes to establish it.
-/

namespace Verif.Arc
open Verif.Spec (Side Slot Family Rng End Hand World Obs)
open Verif.Rc
variable {α : Type}

/-- The handle of the code and the handle of the specification mean the same. -/
inductive ER (umax : Nat) (k : Skel) : Ent → Kind → Hand → Prop
  | shared (d g : Nat) (b : Bool) (f : Nat) (p : List Side) (hl : k.lab d = ⟨f, p⟩) : ER umax k ⟨.strong d g, b⟩ .plain (.shared f p)
  | weak (d : Nat) (g : Option Nat) (b : Bool) (f : Nat) (p : List Side) (hl : k.lab d = ⟨f, p⟩) :
      ER umax k ⟨.weak (some d) g, b⟩ .plain (.weak f p)
  | weakNone (b : Bool) : ER umax k ⟨.weak none none, b⟩ .plain .weakNone
  | uniq (r : Reg) (b : Bool) (hin : RngIn k r.buf ⟨r.off, r.len⟩) :
      ER umax k ⟨.uniq r, b⟩ .plain (.uniq r.buf ⟨r.off, r.len⟩ r.alloc.isSome)
  | iter (r : Reg) (b : Bool) (hin : RngIn k r.buf ⟨r.off, r.len⟩) :
      ER umax k ⟨.uniq r, b⟩ .iter (.iter r.buf ⟨r.off, r.len⟩ r.alloc.isSome)
  | parts (r : Reg) (b : Bool) (m f c : Nat) (q : Rng) (h1 : f + c ≤ 2 ^ m) (h2 : 2 ^ m ≤ umax) (hin : RngIn k r.buf q)
      (hl : r.len = (restRng m f c q).len) (ho : f + c < 2 ^ m → r.off = (restRng m f c q).off) :
      ER umax k ⟨.uniq r, b⟩ (.parts (.pstate (posCtx umax umax) m f c q)) (.parts r.buf (win (rparts m q) f c) r.alloc.isSome)

theorem done_len {m f c : Nat} {q : Rng} (h : f + c = 2 ^ m) : (restRng m f c q).len = 0 := by
  simp only [restRng, show 2 ^ m - c = f by omega]; omega

/-- Two tables mean the same; `G` are the handles. -/
structure TabR (umax : Nat) (G : Nat → Option Ent) (k : Skel) (tab : List (Option (Nat × Kind))) (ws : List (Option Hand)) : Prop where
  len : tab.length = ws.length
  at_ : ∀ j : Nat, (tab[j]?.join = none ∧ ws[j]?.join = none) ∨
    ∃ m it y e, tab[j]?.join = some (m, it) ∧ ws[j]?.join = some y ∧ G m = some e ∧ ER umax k e it y
  inj : ∀ (j j' m : Nat) (it it' : Kind), tab[j]?.join = some (m, it) → tab[j']?.join = some (m, it') → j = j'
  onto : ∀ m e, G m = some e → ∃ (j : Nat) (it : Kind), tab[j]?.join = some (m, it)

section
variable {umax : Nat} {G : Nat → Option Ent} {k k' : Skel} {tab : List (Option (Nat × Kind))} {ws : List (Option Hand)} {m m0 j : Nat} {e : Ent}
  {it it0 : Kind} {y : Hand}

theorem join_push {β : Type} (l : List (Option β)) (x : β) (j : Nat) :
    (l ++ [some x])[j]?.join = if j = l.length then some x else l[j]?.join := by
  rcases Nat.lt_trichotomy j l.length with h | h | h
  · rw [List.getElem?_append_left h, if_neg (by omega)]
  · subst h; simp
  · rw [if_neg (by omega), List.getElem?_eq_none (by simp; omega), List.getElem?_eq_none (by omega)]

theorem join_set {β : Type} (l : List (Option β)) (x : Option β) (i j : Nat) (h : i < l.length) :
    (l.set i x)[j]?.join = if j = i then x else l[j]?.join := by
  by_cases hj : j = i
  · subst hj; simp [h]
  · rw [if_neg hj, List.getElem?_set_ne (fun h => hj h.symm)]

theorem join_lt {β : Type} {l : List (Option β)} {x : β} {j : Nat} (h : l[j]?.join = some x) : j < l.length := by
  apply Nat.lt_of_not_le; intro hle
  rw [List.getElem?_eq_none hle] at h; cases h

theorem TabR.here (t : TabR umax G k tab ws) (h : tab[j]?.join = some (m, it)) : ∃ y e, ws[j]?.join = some y ∧ G m = some e ∧ ER umax k e it y := by
  rcases t.at_ j with ⟨h1, _⟩ | ⟨m', it', y, e, h1, h2, h3, h4⟩
  · rw [h] at h1; cases h1
  · rw [h] at h1; cases h1; exact ⟨y, e, h2, h3, h4⟩

theorem TabR.grow (t : TabR umax G k tab ws) (hl : ∀ m d g b, G m = some ⟨.strong d g, b⟩ → k'.lab d = k.lab d)
    (hw : ∀ m d g b, G m = some ⟨.weak (some d) g, b⟩ → k'.lab d = k.lab d)
    (hr : ∀ b r, RngIn k b r → RngIn k' b r) : TabR umax G k' tab ws := by
  refine ⟨t.len, fun j => ?_, t.inj, t.onto⟩
  rcases t.at_ j with h | ⟨m, it, y, e, h1, h2, h3, h4⟩
  · exact .inl h
  · refine .inr ⟨m, it, y, e, h1, h2, h3, ?_⟩
    cases h4 with
    | shared d g b f p hl' => exact .shared d g b f p (by rw [hl m d g b h3]; exact hl')
    | weak d g b f p hl' => exact .weak d g b f p (by rw [hw m d g b h3]; exact hl')
    | weakNone b => exact .weakNone b
    | uniq r b hin => exact .uniq r b (hr _ _ hin)
    | iter r b hin => exact .iter r b (hr _ _ hin)
    | parts r b m f c q q1 q2 hin hl' ho => exact .parts r b m f c q q1 q2 (hr _ _ hin) hl' ho

theorem TabR.push (t : TabR umax G k tab ws) (hm : G m = none) (h : ER umax k e it y) :
    TabR umax (upd G m (some e)) k (tab ++ [some (m, it)]) (ws ++ [some y]) := by
  have ne : ∀ {j' m' : Nat} {it' : Kind}, tab[j']?.join = some (m', it') → m' ≠ m := by
    rintro j' m' it' h rfl
    obtain ⟨_, _, _, h2, _⟩ := t.here h
    rw [hm] at h2; cases h2
  refine ⟨by simp [t.len], fun j => ?_, fun j j' m' it1 it2 h1 h2 => ?_, fun m' e' h1 => ?_⟩
  · rw [join_push, join_push, t.len]
    by_cases hj : j = ws.length
    · rw [if_pos hj, if_pos hj]
      exact .inr ⟨m, it, y, e, rfl, rfl, by simp [upd], h⟩
    · rw [if_neg hj, if_neg hj]
      rcases t.at_ j with h | ⟨m', it', y', e', h1, h2, h3, h4⟩
      · exact .inl h
      · refine .inr ⟨m', it', y', e', h1, h2, ?_, h4⟩
        rw [upd, if_neg (ne h1)]; exact h3
  · rw [join_push] at h1 h2
    split at h1 <;> split at h2
    · omega
    · cases h1; exact absurd rfl (ne h2)
    · cases h2; exact absurd rfl (ne h1)
    · exact t.inj j j' m' it1 it2 h1 h2
  · by_cases hm' : m' = m
    · subst hm'; exact ⟨tab.length, it, by rw [join_push, if_pos rfl]⟩
    · rw [upd, if_neg hm'] at h1
      obtain ⟨j, it, hj⟩ := t.onto m' e' h1
      exact ⟨j, it, by rw [join_push, if_neg (Nat.ne_of_lt (join_lt hj))]; exact hj⟩

theorem TabR.del (t : TabR umax G k tab ws) (hj : tab[j]?.join = some (m0, it0)) : TabR umax (upd G m0 none) k (tab.set j none) (ws.set j none) := by
  have hlt := join_lt hj
  refine ⟨by simp [t.len], fun j1 => ?_, fun j1 j2 m' it1 it2 h1 h2 => ?_, fun m' e' h1 => ?_⟩
  · rw [join_set _ _ _ _ hlt, join_set _ _ _ _ (t.len ▸ hlt)]
    by_cases hj1 : j1 = j
    · rw [if_pos hj1, if_pos hj1]; exact .inl ⟨rfl, rfl⟩
    · rw [if_neg hj1, if_neg hj1]
      rcases t.at_ j1 with h | ⟨m', it', y', e', h1, h2, h3, h4⟩
      · exact .inl h
      · refine .inr ⟨m', it', y', e', h1, h2, ?_, h4⟩
        rw [upd, if_neg ?_]
        · exact h3
        · rintro rfl; exact hj1 (t.inj _ _ _ _ _ h1 hj)
  · rw [join_set _ _ _ _ hlt] at h1 h2
    split at h1
    · cases h1
    · split at h2
      · cases h2
      · exact t.inj j1 j2 m' it1 it2 h1 h2
  · simp only [upd] at h1
    split at h1
    · cases h1
    · next hne =>
      obtain ⟨j1, it, hj1⟩ := t.onto m' e' h1
      refine ⟨j1, it, ?_⟩
      rw [join_set _ _ _ _ hlt, if_neg ?_]
      · exact hj1
      · rintro rfl; rw [hj] at hj1; cases hj1; exact hne rfl

theorem TabR.put (t : TabR umax G k tab ws) (hj : tab[j]?.join = some (m0, it0)) (hm : upd G m0 none m = none) (h : ER umax k e it y) :
    TabR umax (upd (upd G m0 none) m (some e)) k (tab.set j (some (m, it))) (ws.set j (some y)) := by
  have hlt := join_lt hj
  have d := t.del hj
  have ne : ∀ {j' m' : Nat} {it' : Kind}, (tab.set j none)[j']?.join = some (m', it') → m' ≠ m := by
    rintro j' m' it' h rfl
    obtain ⟨_, _, _, h2, _⟩ := d.here h
    rw [hm] at h2; cases h2
  have old : ∀ {j1 : Nat}, j1 ≠ j → (tab.set j none)[j1]?.join = tab[j1]?.join := by
    intro j1 h; rw [join_set _ _ _ _ hlt, if_neg h]
  refine ⟨by simp [t.len], fun j1 => ?_, fun j1 j2 m' it1 it2 h1 h2 => ?_, fun m' e' h1 => ?_⟩
  · rw [join_set _ _ _ _ hlt, join_set _ _ _ _ (t.len ▸ hlt)]
    by_cases hj1 : j1 = j
    · rw [if_pos hj1, if_pos hj1]
      exact .inr ⟨m, it, y, e, rfl, rfl, by simp [upd], h⟩
    · rw [if_neg hj1, if_neg hj1]
      rcases d.at_ j1 with ⟨h1, h2⟩ | ⟨m', it', y', e', h1, h2, h3, h4⟩
      · rw [join_set _ _ _ _ hlt, if_neg hj1] at h1
        rw [join_set _ _ _ _ (t.len ▸ hlt), if_neg hj1] at h2
        exact .inl ⟨h1, h2⟩
      · have hne := ne h1
        rw [join_set _ _ _ _ hlt, if_neg hj1] at h1
        rw [join_set _ _ _ _ (t.len ▸ hlt), if_neg hj1] at h2
        refine .inr ⟨m', it', y', e', h1, h2, ?_, h4⟩
        rw [show upd (upd G m0 none) m (some e) m' = upd G m0 none m' from by rw [upd, if_neg hne]]
        exact h3
  · rw [join_set _ _ _ _ hlt] at h1 h2
    split at h1 <;> split at h2
    · omega
    · next hj2 => cases h1; rw [← old hj2] at h2; exact absurd rfl (ne h2)
    · next hj1 _ => cases h2; rw [← old hj1] at h1; exact absurd rfl (ne h1)
    · exact t.inj j1 j2 m' it1 it2 h1 h2
  · by_cases hm' : m' = m
    · subst hm'; exact ⟨j, it, by rw [join_set _ _ _ _ hlt, if_pos rfl]⟩
    · rw [upd, if_neg hm'] at h1
      obtain ⟨j1, it1, hj1⟩ := d.onto m' e' h1
      rw [join_set _ _ _ _ hlt] at hj1
      split at hj1
      · cases hj1
      · next hne => exact ⟨j1, it1, by rw [join_set _ _ _ _ hlt, if_neg hne]; exact hj1⟩

/-- A test on handles. -/
theorem TabR.any (t : TabR umax G k tab ws) {Q : Ent → Prop} {f : Hand → Bool}
    (hq : ∀ m e it y, G m = some e → ER umax k e it y → (Q e ↔ f y = true)) :
    (∃ m e, G m = some e ∧ Q e) ↔ ws.any (fun o => o.any f) = true := by
  rw [List.any_eq_true]
  constructor
  · rintro ⟨m, e, h1, h2⟩
    obtain ⟨j, it, hj⟩ := t.onto m e h1
    obtain ⟨y, e', h3, h4, h5⟩ := t.here hj
    rw [h1] at h4; cases h4
    cases h6 : ws[j]? with
    | none => rw [h6] at h3; cases h3
    | some o =>
      rw [h6] at h3; simp only [Option.join_some] at h3; subst h3
      exact ⟨some y, List.mem_iff_getElem?.2 ⟨j, h6⟩, by simpa using (hq m e it y h1 h5).1 h2⟩
  · rintro ⟨o, ho, hf⟩
    obtain ⟨j, hj⟩ := List.mem_iff_getElem?.1 ho
    cases o with
    | none => cases hf
    | some y =>
      rcases t.at_ j with ⟨_, h⟩ | ⟨m, it, y', e, h1, h2, h3, h4⟩
      · rw [hj] at h; cases h
      · rw [hj] at h2; cases h2
        exact ⟨m, e, h3, (hq m e it y h3 h4).2 (by simpa using hf)⟩

end

/-! ## Names of handles -/

theorem get_push {c' : Conf α} {hs : List (Option Ent)} {e : Ent} (h : c'.hs = hs ++ [some e]) :
    c'.get = upd (fun m => hs[m]?.join) hs.length (some e) := by
  funext m
  simp only [Conf.get, h, join_push, upd]

theorem get_set {hs : List (Option Ent)} {m0 : Nat} : (fun m => (hs.set m0 none)[m]?.join) = upd (fun m => hs[m]?.join) m0 none := by
  funext m
  simp only [upd]
  by_cases h : m0 < hs.length
  · rw [join_set _ _ _ _ h]
  · rw [List.set_eq_of_length_le (by omega)]
    split
    · next e => subst e; rw [List.getElem?_eq_none (by omega)]; rfl
    · rfl

theorem get_len (hs : List (Option Ent)) : hs[hs.length]?.join = none := by simp

/-! ## The relation -/

/-- The single thread and the specification agree. -/
structure SR0 (P : Rules α) (umax : Nat) (zst : Bool) (s : Seq α) (w : World α) : Prop where
  reach : Conf.Reach P zst s.c
  quiet : s.c.Quiet
  core : Core umax s.c.a.b w
  tab : TabR umax s.c.get s.c.a.b.sk s.tab w.hs

/-- In addition, no `&mut [T]` is around. -/
structure SR (P : Rules α) (umax : Nat) (zst : Bool) (s : Seq α) (w : World α) : Prop extends SR0 P umax zst s w where
  nomut : ∀ m e, s.c.get m = some e → e.mutb = false

theorem tameA : Tame (α := α) alone := by
  intro zst c op _ hq
  have hf : ∀ p, c.flying p = false := by
    intro p
    simp only [Conf.flying, List.any_eq_false]
    intro cl hcl
    simp [hq cl hcl]
  exact careful_of_flying (fun _ => hf _) fun _ => hf _

/-- Rules under which the invariants hold, and which let a single thread do everything. -/
class Solo (P : Rules α) : Prop where
  tame : Tame P
  quiet : ∀ c op, c.Quiet → P c op

instance : Solo (α := α) alone := ⟨tameA, fun _ _ h => h⟩

section
variable {P : Rules α} [Solo P] {umax : Nat} {zst : Bool} {s : Seq α} {w : World α} {c c' : Conf α}

theorem data_rng {h : Heap α} {T : List AT} (I : HInv h T) (C : Core umax h w) {d : Nat} {v : DataV} {f : Nat} {p : List Side}
    (hd : h.sk.node d = some (.data v)) (hl : h.sk.lab d = ⟨f, p⟩) :
    (w.fam f).buf = v.buf ∧ w.rangeOf f p = ⟨v.off, v.len⟩ ∧ w.holdsOf f p = v.alloc.isSome ∧ RngIn h.sk v.buf ⟨v.off, v.len⟩ := by
  obtain ⟨a1, a2, a3⟩ := I.good.shape.dataFam d v hd
  have hf := I.good.shape.famLt d (I.good.ledger.lt hd) (by rw [I.good.shape.kinds _ _ hd]; simp [Node.kind])
  rw [hl] at a1 a2 a3 hf
  simp only at a1 a2 a3 hf
  have e := C.fams f hf
  have er : w.rangeOf f p = ⟨v.off, v.len⟩ := by simp only [World.rangeOf]; rw [e, a2]
  refine ⟨by rw [e, a1], er, ?_, ?_⟩
  · simp only [World.holdsOf, er]; rw [e, a3]
  · have h1 := C.famIn f hf
    rw [← a1] at h1
    refine h1.sub ?_
    have := at_sub (r := (h.sk.fams f).rng) [] p
    rw [List.append_nil, ← a2] at this
    exact this.2

/-- The state after a call: `h0` is the heap and `hs0` are the handles it started from, `es` are the handles returned. -/
structure After (P : Rules α) (zst : Bool) (h0 : Heap α) (hs0 : List (Option Ent)) (es : List Ent) (c' : Conf α) : Prop where
  reach : Conf.Reach P zst c'
  quiet : c'.Quiet
  keep : Keep h0 c'.a.b
  next : h0.sk.next ≤ c'.a.b.sk.next
  lab : ∀ x, x < h0.sk.next → c'.a.b.sk.lab x = h0.sk.lab x
  hs : c'.hs = hs0 ++ es.map some

theorem Keep.rngIn {h h' : Heap α} (k : Keep h h') {b : Nat} {r : Rng} (hr : RngIn h.sk b r) : RngIn h'.sk b r := by
  simp only [RngIn] at hr ⊢; rw [k.nbuf, k.blen]; exact hr

/-- The world with the items and memory that are left. -/
def trim (w : World α) (h : Heap α) : World α := { w with items := h.slot, mem := h.sk.mem }

theorem Core.trim {h h' : Heap α} (C : Core umax h w) (k : Keep h h') : Core umax h' (trim w h') where
  zst := by rw [k.zst]; exact C.zst
  nbuf := by rw [k.nbuf]; exact C.nbuf
  items := rfl
  mem := rfl
  nfam := by rw [k.nfam]; exact C.nfam
  fams := by rw [k.nfam, k.fams]; exact C.fams
  famIn := by rw [k.nfam, k.fams]; exact fun f hf => k.rngIn (C.famIn f hf)
  blen := by rw [k.blen]; exact C.blen

theorem cov_iff' {tab : List (Option (Nat × Kind))} {ws : List (Option Hand)} (B : c.BI) (C : Core umax c.a.b w)
    (t : TabR umax c.get c.a.b.sk tab ws) (b i : Nat) : (∃ m, c.Shows m b i) ↔ ws.any (fun o => o.any (w.covers b i)) = true := by
  rw [← t.any (Q := fun e => ∃ off len, Conf.range c.a e.h = .ok (some (b, off, len)) ∧ off ≤ i ∧ i < off + len)]
  · constructor
    · rintro ⟨m, e, off, len, h1, h2⟩; exact ⟨m, e, h1, off, len, h2⟩
    · rintro ⟨m, e, h1, off, len, h2⟩; exact ⟨m, e, off, len, h1, h2⟩
  · intro m e it y hm hr
    cases hr with
    | shared d g mb f p hl =>
      obtain ⟨v, hd⟩ := data_of_strong B hm
      obtain ⟨e1, e2, _⟩ := data_rng B.heap C hd hl
      simp only [Conf.range, getData_ok hd, World.covers, e1, e2, Bool.and_eq_true, beq_iff_eq, has_iff]
      constructor
      · rintro ⟨off, len, h1, h2⟩
        have := pure_ok h1
        cases this; exact ⟨rfl, h2⟩
      · rintro ⟨rfl, h2⟩; exact ⟨v.off, v.len, rfl, h2⟩
    | weak d g mb f p hl =>
      simp only [Conf.range, World.covers]
      exact ⟨fun ⟨_, _, h, _⟩ => (by cases h), fun h => (by cases h)⟩
    | weakNone mb =>
      simp only [Conf.range, World.covers]
      exact ⟨fun ⟨_, _, h, _⟩ => (by cases h), fun h => (by cases h)⟩
    | uniq r mb hin =>
      simp only [Conf.range, World.covers, Bool.and_eq_true, beq_iff_eq, has_iff]
      constructor
      · rintro ⟨off, len, h1, h2⟩; cases h1; exact ⟨rfl, h2⟩
      · rintro ⟨rfl, h2⟩; exact ⟨r.off, r.len, rfl, h2⟩
    | iter r mb hin =>
      simp only [Conf.range, World.covers, Bool.and_eq_true, beq_iff_eq, has_iff]
      constructor
      · rintro ⟨off, len, h1, h2⟩; cases h1; exact ⟨rfl, h2⟩
      · rintro ⟨rfl, h2⟩; exact ⟨r.off, r.len, rfl, h2⟩
    | parts r mb m f c q h1 h2 hin hl ho =>
      simp only [Conf.range, World.covers, Bool.and_eq_true, beq_iff_eq, win_has h1, has_iff]
      have key : (r.off ≤ i ∧ i < r.off + r.len) ↔ ((restRng m f c q).off ≤ i ∧ i < (restRng m f c q).off + (restRng m f c q).len) := by
        rcases Nat.lt_or_eq_of_le h1 with h | h
        · rw [ho h, hl]
        · rw [hl, done_len h]; omega
      constructor
      · rintro ⟨off, len, h1, h2⟩; cases h1; exact ⟨rfl, key.1 h2⟩
      · rintro ⟨rfl, h2⟩; exact ⟨r.off, r.len, rfl, key.2 h2⟩

theorem hold_iff' {tab : List (Option (Nat × Kind))} {ws : List (Option Hand)} (B : c.BI) (C : Core umax c.a.b w)
    (t : TabR umax c.get c.a.b.sk tab ws) (b : Nat) :
    (∃ m e, c.get m = some e ∧ Keeps c.a.b.sk b e.h) ↔ ws.any (fun o => o.any (w.keeps b)) = true := by
  rw [← t.any (Q := fun e => Keeps c.a.b.sk b e.h)]
  intro m e it y hm hr
  cases hr with
  | shared d g mb f p hl =>
    obtain ⟨v, hd⟩ := data_of_strong B hm
    obtain ⟨e1, _, e3, _⟩ := data_rng B.heap C hd hl
    simp only [Keeps, World.keeps, e1, e3, hd, Option.some.injEq, Node.data.injEq, exists_eq_left', Bool.and_eq_true, beq_iff_eq]
  | weak d g mb f p hl => simp [Keeps, World.keeps]
  | weakNone mb => simp [Keeps, World.keeps]
  | uniq r mb hin => simp only [Keeps, World.keeps, Bool.and_eq_true, beq_iff_eq]
  | iter r mb hin => simp only [Keeps, World.keeps, Bool.and_eq_true, beq_iff_eq]
  | parts => simp only [Keeps, World.keeps, Bool.and_eq_true, beq_iff_eq]

/-- Quiescence: what is left is what handles need. -/
theorem settle_eq (h : Conf.Reach P zst c') (hq : c'.Quiet) {h0 : Heap α} (C : Core umax h0 w) (k : Keep h0 c'.a.b)
    (hz0 : ∀ b, h0.sk.mem b = true → h0.sk.zst = false)
    {tab : List (Option (Nat × Kind))} (t : TabR umax c'.get c'.a.b.sk tab w.hs) : trim w c'.a.b = w.settle := by
  have B := h.BI Solo.tame
  have C' := Core.trim C k
  have e1 : c'.a.b.slot = w.settle.items := by
    funext b i
    have key := (C37_alive_iff_shown Solo.tame h hq b i).trans (cov_iff' B C' t b i)
    simp only [World.settle]
    rw [C.items]
    rcases k.slot b i with e | ⟨⟨a, e2⟩, e3⟩
    · rw [e]
      cases hs : h0.slot b i with
      | live a =>
        have : w.anyHand (w.covers b i) = true := key.1 ⟨a, by rw [e]; exact hs⟩
        simp only [this, if_true]
      | _ => rfl
    · rw [e2, e3]
      have : ¬ w.anyHand (w.covers b i) = true := by
        intro h1
        obtain ⟨x, hx⟩ := key.2 h1
        rw [e3] at hx; cases hx
      simp only [this, Bool.false_eq_true, if_false]
  have e2 : c'.a.b.sk.mem = w.settle.mem := by
    funext b
    have key := hold_iff' B C' t b
    simp only [World.settle]
    rw [C.mem]
    cases hm : c'.a.b.sk.mem b with
    | true =>
      have : w.anyHand (w.keeps b) = true := key.1 (quiet_mem B hq hm)
      rw [this, k.mem b hm]; rfl
    | false =>
      cases hm0 : h0.sk.mem b with
      | false => rfl
      | true =>
        have : ¬ w.anyHand (w.keeps b) = true := by
          intro h1
          obtain ⟨m, e, h2, h3⟩ := key.2 h1
          rw [keeps_mem B h2 h3 (by rw [k.zst]; exact hz0 b hm0)] at hm; cases hm
        simp only [Bool.not_eq_true] at this
        rw [this]; rfl
  have e3 : trim w c'.a.b = { w with items := c'.a.b.slot, mem := c'.a.b.sk.mem } := rfl
  rw [e3, e1, e2]; rfl

theorem SR0.finish {h0 : Heap α} {hs0 : List (Option Ent)} {es : List Ent} {tab : List (Option (Nat × Kind))}
    (A : After P zst h0 hs0 es c') (C : Core umax h0 w) (hz0 : ∀ b, h0.sk.mem b = true → h0.sk.zst = false)
    (t : TabR umax c'.get c'.a.b.sk tab w.hs) : SR0 P umax zst ⟨c', tab⟩ w.settle where
  reach := A.reach
  quiet := A.quiet
  core := by rw [← settle_eq A.reach A.quiet C A.keep hz0 t]; exact Core.trim C A.keep
  tab := t

theorem SR0.settled (R : SR0 P umax zst s w) : w.settle = w := by
  have := settle_eq R.reach R.quiet R.core (.refl _) (fun b hb => by
    cases hz : s.c.a.b.sk.zst with
    | false => rfl
    | true => rw [(R.reach.BI Solo.tame).heap.good.shape.memZst hz b] at hb; cases hb) R.tab
  rw [← this]
  simp only [Arc.trim, ← R.core.items, ← R.core.mem]

theorem SR0.memz (R : SR0 P umax zst s w) (b : Nat) (hb : s.c.a.b.sk.mem b = true) : s.c.a.b.sk.zst = false := by
  cases hz : s.c.a.b.sk.zst with
  | false => rfl
  | true => rw [(R.reach.BI Solo.tame).heap.good.shape.memZst hz b] at hb; cases hb

omit [Solo P] in
/-- What there is at a position, in the code and in the specification. -/
theorem SR.cases (R : SR P umax zst s w) (k : Nat) :
    (s.at' k = none ∧ w.get k = none) ∨
    (∃ m d g f p, s.at' k = some (.slice m d g) ∧ s.tab[k]?.join = some (m, .plain) ∧ s.c.get m = some ⟨.strong d g, false⟩ ∧
      w.get k = some (.shared f p) ∧ s.c.a.b.sk.lab d = ⟨f, p⟩) ∨
    (∃ m r, s.at' k = some (.uniq m r) ∧ s.tab[k]?.join = some (m, .plain) ∧ s.c.get m = some ⟨.uniq r, false⟩ ∧
      w.get k = some (.uniq r.buf ⟨r.off, r.len⟩ r.alloc.isSome) ∧ RngIn s.c.a.b.sk r.buf ⟨r.off, r.len⟩) ∨
    (∃ m r, s.at' k = some (.iter m r) ∧ s.tab[k]?.join = some (m, .iter) ∧ s.c.get m = some ⟨.uniq r, false⟩ ∧
      w.get k = some (.iter r.buf ⟨r.off, r.len⟩ r.alloc.isSome) ∧ RngIn s.c.a.b.sk r.buf ⟨r.off, r.len⟩) ∨
    (∃ m r n f c q, s.at' k = some (.parts m r (.pstate (posCtx umax umax) n f c q)) ∧
      s.tab[k]?.join = some (m, .parts (.pstate (posCtx umax umax) n f c q)) ∧ s.c.get m = some ⟨.uniq r, false⟩ ∧
      w.get k = some (.parts r.buf (win (rparts n q) f c) r.alloc.isSome) ∧
      f + c ≤ 2 ^ n ∧ 2 ^ n ≤ umax ∧ RngIn s.c.a.b.sk r.buf q ∧ r.len = (restRng n f c q).len ∧
      (f + c < 2 ^ n → r.off = (restRng n f c q).off)) ∨
    (∃ m d g f p, s.at' k = some (.weak m (some d) g) ∧ s.tab[k]?.join = some (m, .plain) ∧ s.c.get m = some ⟨.weak (some d) g, false⟩ ∧
      w.get k = some (.weak f p) ∧ s.c.a.b.sk.lab d = ⟨f, p⟩) ∨
    (∃ m, s.at' k = some (.weak m none none) ∧ s.tab[k]?.join = some (m, .plain) ∧ s.c.get m = some ⟨.weak none none, false⟩ ∧
      w.get k = some .weakNone) := by
  rcases R.tab.at_ k with ⟨h1, h2⟩ | ⟨m, it, y, e, h1, h2, h3, h4⟩
  · exact .inl ⟨by simp only [Seq.at', h1], h2⟩
  · have hb := R.nomut m e h3
    cases h4 with
    | shared d g b f p hl =>
      cases hb
      exact .inr (.inl ⟨m, d, g, f, p, by simp only [Seq.at', h1, h3], h1, h3, h2, hl⟩)
    | uniq r b hin =>
      cases hb
      exact .inr (.inr (.inl ⟨m, r, by simp only [Seq.at', h1, h3], h1, h3, h2, hin⟩))
    | iter r b hin =>
      cases hb
      exact .inr (.inr (.inr (.inl ⟨m, r, by simp only [Seq.at', h1, h3], h1, h3, h2, hin⟩)))
    | parts r b n f c q q1 q2 hin hl ho =>
      cases hb
      exact .inr (.inr (.inr (.inr (.inl ⟨m, r, n, f, c, q, by simp only [Seq.at', h1, h3], h1, h3, h2, q1, q2, hin, hl, ho⟩))))
    | weak d g b f p hl =>
      cases hb
      exact .inr (.inr (.inr (.inr (.inr (.inl ⟨m, d, g, f, p, by simp only [Seq.at', h1, h3], h1, h3, h2, hl⟩)))))
    | weakNone b =>
      cases hb
      exact .inr (.inr (.inr (.inr (.inr (.inr ⟨m, by simp only [Seq.at', h1, h3], h1, h3, h2⟩)))))

/-- Handles that were there. -/
theorem SR0.grown (R : SR0 P umax zst s w) {h0 : Heap α} {hs0 : List (Option Ent)} {es : List Ent} (g : Grow s.c.a.b.sk h0.sk)
    (A : After P zst h0 hs0 es c') : TabR umax s.c.get c'.a.b.sk s.tab w.hs := by
  refine R.tab.grow (fun m d gg b h => ?_) (fun m d gg b h => ?_) (fun b r h => A.keep.rngIn (h.grow g))
  rotate_left
  · have hd := (((R.reach.BI Solo.tame).ents m _ h) d rfl).1
    rw [A.lab d (Nat.lt_of_lt_of_le hd g.next), g.lab d hd]
  have hd := (R.reach.BI Solo.tame).heap.lt (ref_mem_aS (Conf.get_tok' h (t := .ref d) (by simp [entT])))
  rw [A.lab d (Nat.lt_of_lt_of_le hd g.next), g.lab d hd]

/-! ## Calls -/

theorem steps_add {i n0 n : Nat} {c c1 : Conf α} (h : steps c i n0 = .ok c1) : steps c i (n0 + n) = steps c1 i n := by
  induction n0 generalizing c with
  | zero => cases h; rw [Nat.zero_add]
  | succ n0 ih =>
    obtain ⟨c2, e1, e2⟩ := bind_ok h
    rw [Nat.add_right_comm, steps_ok e1]; exact ih e2

omit [Solo P] in
theorem steps_reach' {i n : Nat} {c c' : Conf α} (h : Conf.Reach P zst c) (e : steps c i n = .ok c') : Conf.Reach P zst c' := by
  induction n generalizing c with
  | zero => cases e; exact h
  | succ n ih =>
    obtain ⟨c2, e1, e2⟩ := bind_ok e
    exact ih (.run h i e1) e2

variable {c1 c2 : Conf α} {op : Op α} {h0 : Heap α} {hs0 : List (Option Ent)} {k : Tgt α} {n0 : Nat}

theorem ret_of (h : Conf.Reach P zst c) (hop : c.Quiet) (e : c.start op = some c1)
    (e0 : steps c1 c.calls.length n0 = .ok c2) (s : SI h0 hs0 c.calls.length k c2) :
    ∃ c' r es, Ret c op r (List.range' hs0.length es.length) c' ∧ After P zst h0 hs0 es c' ∧ k.res c'.a r es := by
  have h2 := steps_reach' (.start h op (Solo.quiet _ _ hop) e) e0
  obtain ⟨n, c', cl, r, es, e1, hq, hr, hk, hn, hl, hh, hc, ht, hp, ho, hres⟩ := s.run Solo.tame h2
  exact ⟨c', r, es, ⟨c1, n0 + n, cl, e, by rw [steps_add e0]; exact e1, hc, ht, hp, ho⟩, ⟨hr, hq, hk, hn, hl, hh⟩, hres⟩

theorem others_of (hq : c.Quiet) {cl : Call α} (hc : c1.calls = c.calls ++ [cl]) (j : Nat) (cl' : Call α)
    (h : c1.calls[j]? = some cl') (hne : j ≠ c.calls.length) : cl'.fin = true := by
  rw [hc] at h
  rcases Nat.lt_or_ge j c.calls.length with hj | hj
  · rw [List.getElem?_append_left hj] at h
    exact hq cl' (List.mem_of_getElem? h)
  · rw [List.getElem?_eq_none (by simp; omega)] at h; cases h

/-- A call that has just started. -/
theorem SI.start (hq : c.Quiet) {cl : Call α} (ha : c1.a = c.a) (hc : c1.calls = c.calls ++ [cl]) (ho : cl.out = [])
    (hs : (cl.tasks = [] ∧ k.pcS c.a cl.pc) ∨ ∃ r, cl.pc = .done r ∧ k.res c.a r []) :
    SI c.a.b c1.hs c.calls.length k c1 where
  keep := by rw [ha]; exact .refl _
  next := by rw [ha]; exact Nat.le_refl _
  lab := by rw [ha]; exact fun _ _ => rfl
  others := others_of hq hc
  cl := by
    refine ⟨cl, by rw [hc]; simp, ?_⟩
    rcases hs with ⟨h1, h2⟩ | ⟨r, h1, h2⟩
    · exact .inl ⟨.inl h1, by rw [ha]; exact h2, rfl, ho⟩
    · exact .inr ⟨r, [], h1, by simp, by simp [ho], by rw [ha]; exact h2, by simp⟩

/-- A call after its first step. -/
theorem SI.first (hq : c.Quiet) {cl : Call α} {a' : Arena α} {n : Next α}
    (hc : c1.calls = c.calls ++ [cl]) (ho : cl.out = []) (ht : cl.tasks = []) (e : pcStep c1.a cl.pc = .ok (a', n))
    (hs : ((n.tasks = [] ∨ loose n.pc) ∧ k.pcS a' n.pc ∧ n.push = []) ∨ ∃ r, n.pc = .done r ∧ k.res a' r n.push ∧
      ∀ d g b, ⟨.strong d g, b⟩ ∉ n.push) :
    ∃ c2, steps c1 c.calls.length 1 = .ok c2 ∧ SI a'.b c1.hs c.calls.length k c2 := by
  have hcl : c1.calls[c.calls.length]? = some cl := by rw [hc]; simp
  have es : c1.step c.calls.length = .ok (c1.after c.calls.length a' { cl with pc := n.pc, tasks := n.tasks } n.push) := by
    simp only [Conf.step, hcl, callStep, ht, e]; rfl
  refine ⟨_, by rw [steps_ok es]; rfl, ?_⟩
  refine ⟨.refl _, Nat.le_refl _, fun _ _ => rfl, ?_, ⟨{ cl with pc := n.pc, tasks := n.tasks, out := cl.out ++ List.range' c1.hs.length n.push.length },
      List.getElem?_set_self (List.getElem?_eq_some_iff.1 hcl).1, ?_⟩⟩
  · intro j cl' hj hne
    rcases after_calls hcl hj with ⟨h3, _⟩ | ⟨_, h3⟩
    · exact absurd h3 hne
    · exact others_of hq hc j cl' h3 hne
  · rcases hs with ⟨h2, h3, h4⟩ | ⟨r, h2, h3, h4⟩
    · exact .inl ⟨h2, h3, by simp [Conf.after, h4], by simp [ho, h4]⟩
    · exact .inr ⟨r, n.push, h2, by simp [Conf.after], by simp [ho], h3, fun d g b hd => absurd hd (h4 d g b)⟩

theorem quiet_borrowed (hq : c.Quiet) (m : Nat) : c.borrowed m = false := by
  simp only [Conf.borrowed, List.any_eq_false]
  intro cl hcl
  simp [hq cl hcl]

end

/-! ## Each call -/

section
variable {P : Rules α} [Solo P] {zst : Bool} {c c1 : Conf α} {m d g : Nat} {r : Reg}

theorem first_ok (h1 : Conf.Reach P zst c1) {cl : Call α} (hc : c1.calls = c.calls ++ [cl]) (ht : cl.tasks = []) :
    ∃ a' n, pcStep c1.a cl.pc = .ok (a', n) := by
  obtain ⟨c', e, _⟩ := h1.step Solo.tame c.calls.length
  have hcl : c1.calls[c.calls.length]? = some cl := by rw [hc]; simp
  simp only [Conf.step, hcl, callStep, ht] at e
  obtain ⟨x, e1, _⟩ := bind_ok e
  obtain ⟨⟨a', n⟩, e2, _⟩ := bind_ok e1
  exact ⟨a', n, e2⟩

theorem clone_ret (h : Conf.Reach P zst c) (hq : c.Quiet) (hm : c.get m = some ⟨.strong d g, false⟩) :
    ∃ c' d' g', Ret c (.clone m) .handle [c.hs.length] c' ∧ After P zst c.a.b c.hs [⟨.strong d' g', false⟩] c' ∧
      c'.a.b.sk.lab d' = c.a.b.sk.lab d := by
  have hd := (h.BI Solo.tame).heap.lt (ref_mem_aS (Conf.get_tok' hm (t := .ref d) (by simp [entT])))
  obtain ⟨c', r, es, h1, h2, rfl, d', g', rfl, h3⟩ := ret_of (op := .clone m) (n0 := 0) h hq
    (by simp only [Conf.start, hm]) rfl
    (SI.start (k := .share (c.a.b.sk.lab d)) (c1 := c.shared (.clone m) m (.cl1 d g)) hq rfl rfl rfl (.inl ⟨rfl, rfl, hd⟩))
  exact ⟨c', d', g', h1, h2, h3⟩

theorem cloneSide_ret (h : Conf.Reach P zst c) (hq : c.Quiet) (hm : c.get m = some ⟨.strong d g, false⟩) (s : Side) :
    ∃ c' d' g', Ret c (.cloneSide s m) .handle [c.hs.length] c' ∧ After P zst c.a.b c.hs [⟨.strong d' g', false⟩] c' ∧
      c'.a.b.sk.lab d' = tgtL c.a d s := by
  obtain ⟨c', r, es, h1, h2, rfl, d', g', rfl, h3⟩ := ret_of (op := .cloneSide s m) (n0 := 0) h hq
    (by simp only [Conf.start, hm]) rfl
    (SI.start (k := .share (tgtL c.a d s)) (c1 := c.shared (.cloneSide s m) m (.wait d g s)) hq rfl rfl rfl (.inl ⟨rfl, rfl⟩))
  exact ⟨c', d', g', h1, h2, h3⟩

theorem drop_ret (h : Conf.Reach P zst c) (hq : c.Quiet)
    (hm : (∃ d g, c.get m = some ⟨.strong d g, false⟩) ∨ ∃ r, c.get m = some ⟨.uniq r, false⟩) :
    ∃ c', Ret c (.drop m) .unit [] c' ∧ After P zst c.a.b (c.hs.set m none) [] c' := by
  have key : ∀ ts, c.start (.drop m) = some (c.taking (.drop m) m (.done .unit) ts) →
      ∃ c', Ret c (.drop m) .unit [] c' ∧ After P zst c.a.b (c.hs.set m none) [] c' := by
    intro ts e
    obtain ⟨c', r, es, h1, h2, rfl, rfl⟩ := ret_of (op := .drop m) (n0 := 0) h hq e rfl
      (SI.start (k := .exact .unit []) (c1 := c.taking (.drop m) m (.done .unit) ts) hq rfl rfl rfl (.inr ⟨_, rfl, rfl, rfl⟩))
    exact ⟨c', h1, h2⟩
  rcases hm with ⟨d, g, hm⟩ | ⟨r, hm⟩
  · exact key [.slice d g] (by simp only [Conf.start, hm, quiet_borrowed hq]; rfl)
  · exact key [.base (.dropReg r)] (by simp only [Conf.start, hm, quiet_borrowed hq]; rfl)

theorem downgrade_ret (h : Conf.Reach P zst c) (hq : c.Quiet) (hm : c.get m = some ⟨.strong d g, false⟩) :
    ∃ c', Ret c (.downgrade m) .handle [c.hs.length] c' ∧ After P zst c.a.b c.hs [⟨.weak (some d) (some g), false⟩] c' := by
  obtain ⟨c', r, es, h1, h2, rfl, rfl⟩ := ret_of (op := .downgrade m) (n0 := 0) h hq
    (by simp only [Conf.start, hm]) rfl
    (SI.start (k := .down d g) (c1 := c.shared (.downgrade m) m (.dg0 d g)) hq rfl rfl rfl (.inl ⟨rfl, rfl, rfl⟩))
  exact ⟨c', h1, h2⟩

theorem upgrade_yes (h : Conf.Reach P zst c) (hq : c.Quiet) {go : Option Nat} (hm : c.get m = some ⟨.weak (some d) go, false⟩)
    (hs : c.a.b.strong d ≠ 0) :
    ∃ c' d' g', Ret c (.upgrade m) .handle [c.hs.length] c' ∧ After P zst c.a.b c.hs [⟨.strong d' g', false⟩] c' ∧
      c'.a.b.sk.lab d' = c.a.b.sk.lab d := by
  obtain ⟨c', r, es, h1, h2, rfl, d', g', rfl, h3⟩ := ret_of (op := .upgrade m) (n0 := 0) h hq
    (by simp only [Conf.start, hm]) rfl
    (SI.start (k := .share (c.a.b.sk.lab d)) (c1 := c.shared (.upgrade m) m (.up (some d))) hq rfl rfl rfl
      (.inl ⟨rfl, d, rfl, rfl, hs⟩))
  exact ⟨c', d', g', h1, h2, h3⟩

theorem upgrade_no (h : Conf.Reach P zst c) (hq : c.Quiet) {dd go : Option Nat} (hm : c.get m = some ⟨.weak dd go, false⟩)
    (hs : ∀ x, dd = some x → c.a.b.strong x = 0) :
    ∃ c', Ret c (.upgrade m) .none [] c' ∧ After P zst c.a.b c.hs [] c' := by
  have e : c.start (.upgrade m) = some (c.shared (.upgrade m) m (.up dd)) := by simp only [Conf.start, hm]
  have e1 : pcStep c.a (.up dd) = .ok (c.a, { pc := .done .none }) := by
    cases dd with
    | none => rfl
    | some x => simp only [pcStep, hs x rfl, if_true]
  obtain ⟨c2, e2, s2⟩ := SI.first (k := .exact .none []) (c1 := c.shared (.upgrade m) m (.up dd)) hq rfl rfl rfl e1
    (.inr ⟨_, rfl, ⟨rfl, rfl⟩, by simp⟩)
  obtain ⟨c', r', es', h1, h2, rfl, rfl⟩ := ret_of h (op := .upgrade m) hq e e2 s2
  exact ⟨c', h1, h2⟩

theorem cloneWeak_ret (h : Conf.Reach P zst c) (hq : c.Quiet) {dd go : Option Nat} (hm : c.get m = some ⟨.weak dd go, false⟩) :
    ∃ c', Ret c (.clone m) .handle [c.hs.length] c' ∧ After P zst c.a.b c.hs [⟨.weak dd go, false⟩] c' := by
  have e : c.start (.clone m) = some (c.shared (.clone m) m (.wc dd go)) := by simp only [Conf.start, hm]
  obtain ⟨a', n, e1⟩ := first_ok (c := c) (.start h (.clone m) (Solo.quiet _ _ hq) e) rfl rfl
  have e1' : pcStep c.a (.wc dd go) = .ok (a', n) := e1
  have key : a'.b = c.a.b ∧ n = { pc := .done .handle, push := [⟨.weak dd go, false⟩] } := by
    cases go with
    | none => cases e1'; exact ⟨rfl, rfl⟩
    | some g =>
      simp only [pcStep] at e1'
      split at e1'
      · cases e1'
      · cases e1'; exact ⟨rfl, rfl⟩
  obtain ⟨eb, rfl⟩ := key
  obtain ⟨c2, e2, s2⟩ := SI.first (k := .exact .handle [⟨.weak dd go, false⟩]) (c1 := c.shared (.clone m) m (.wc dd go)) hq rfl rfl rfl e1
    (.inr ⟨_, rfl, ⟨rfl, rfl⟩, by simp⟩)
  rw [eb] at s2
  obtain ⟨c', r', es', h1, h2, rfl, rfl⟩ := ret_of h (op := .clone m) hq e e2 s2
  exact ⟨c', h1, h2⟩

theorem dropWeak_ret (h : Conf.Reach P zst c) (hq : c.Quiet) {dd go : Option Nat} (hm : c.get m = some ⟨.weak dd go, false⟩) :
    ∃ c', Ret c (.drop m) .unit [] c' ∧ After P zst c.a.b (c.hs.set m none) [] c' := by
  have e : c.start (.drop m) = some (c.taking (.drop m) m (.wd go)) := by
    simp only [Conf.start, hm, quiet_borrowed hq]; rfl
  obtain ⟨a', n, e1⟩ := first_ok (c := c) (.start h (.drop m) (Solo.quiet _ _ hq) e) rfl rfl
  have e1' : pcStep c.a (.wd go) = .ok (a', n) := e1
  have key : a'.b = c.a.b ∧ n = { pc := .done .unit } := by
    cases go with
    | none => cases e1'; exact ⟨rfl, rfl⟩
    | some g =>
      simp only [pcStep] at e1'
      split at e1'
      · cases e1'
      · cases e1'; exact ⟨rfl, rfl⟩
  obtain ⟨eb, rfl⟩ := key
  obtain ⟨c2, e2, s2⟩ := SI.first (k := .exact .unit []) (c1 := c.taking (.drop m) m (.wd go)) hq rfl rfl rfl e1
    (.inr ⟨_, rfl, ⟨rfl, rfl⟩, by simp⟩)
  rw [eb] at s2
  obtain ⟨c', r', es', h1, h2, rfl, rfl⟩ := ret_of h (op := .drop m) hq e e2 s2
  exact ⟨c', h1, h2⟩

end
end Verif.Arc
