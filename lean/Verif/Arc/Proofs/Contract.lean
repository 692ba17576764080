import Verif.Arc.Contract
import Verif.Arc.Proofs.Unwind3
/-!
# What the calls return: every step leads to what is specified
-/

namespace Verif.Arc
open Verif.Spec (Side Slot Family Rng End)
open Verif.Rc
variable {α : Type}

/-- How items change. -/
def SEvo (W : Nat → Nat → Prop) (s s' : Nat → Nat → Slot α) : Prop := ∀ b i, s' b i = s b i ∨ (s b i = .absent ∧ ∃ x, s' b i = .live x) ∨
  (∃ x, s b i = .live x ∧ (s' b i = .dropped ∨ s' b i = .moved)) ∨ (W b i ∧ s b i ≠ .absent ∧ s' b i ≠ .absent)

/-- The item is `x`, or gone. -/
def Kept (x : α) (s : Slot α) : Prop := s = .live x ∨ s = .dropped ∨ s = .moved

theorem SEvo.refl {W : Nat → Nat → Prop} (s : Nat → Nat → Slot α) : SEvo W s s := fun _ _ => .inl rfl

theorem SEvo.kept {W : Nat → Nat → Prop} {s s' : Nat → Nat → Slot α} (e : SEvo W s s') {b i : Nat} {x : α} (h : W b i ∨ Kept x (s b i)) :
    W b i ∨ Kept x (s' b i) := by
  rcases h with h | h
  · exact .inl h
  · rcases e b i with e | ⟨e, _⟩ | ⟨y, e, e'⟩ | ⟨e, _⟩
    · rw [e]; exact .inr h
    · rw [e] at h; rcases h with h | h | h <;> cases h
    · exact .inr (.inr e')
    · exact .inl e

theorem SEvo.absent {W : Nat → Nat → Prop} {s s' : Nat → Nat → Slot α} (e : SEvo W s s') {b i : Nat} (h : s' b i = .absent) : s b i = .absent := by
  rcases e b i with e | ⟨e, _⟩ | ⟨y, _, e⟩ | ⟨_, _, e⟩
  · rw [← e]; exact h
  · exact e
  · rw [h] at e; rcases e with e | e <;> cases e
  · exact absurd h e

theorem SEvo.filled {W : Nat → Nat → Prop} {s s' : Nat → Nat → Slot α} (e : SEvo W s s') {b : Nat} {xs : List α} (h : Filled W s b xs) :
    Filled W s' b xs := fun i x hx => e.kept (h i x hx)

/-- If `d` is still there, it is a slice of these items. -/
structure At (a : Arena α) (d b o l : Nat) : Prop where
  lt : d < a.b.sk.next
  kind : a.b.sk.kind d = .data
  is : ∀ v, a.b.sk.node d = some (.data v) → v.buf = b ∧ v.off = o ∧ v.len = l

section
variable {a a' : Arena α}

theorem At.of (B : Base a.b.sk) {d : Nat} {v : DataV} (h : a.b.sk.node d = some (.data v)) : At a d v.buf v.off v.len :=
  ⟨B.lt h, B.kinds _ _ h, fun v' h' => by rw [h] at h'; cases h'; exact ⟨rfl, rfl, rfl⟩⟩

theorem At.mono (B : Base a.b.sk) (e : AEvo a a') {d b o l : Nat} (h : At a d b o l) : At a' d b o l := by
  refine ⟨Nat.lt_of_lt_of_le h.lt e.evo.next, by rw [e.evo.kind d h.lt]; exact h.kind, fun v' hv' => ?_⟩
  cases hn : a.b.sk.node d with
  | none => rw [e.evo.dead d h.lt hn] at hv'; cases hv'
  | some n =>
    obtain ⟨v, rfl⟩ : ∃ v, n = .data v := data_of_kind (by rw [← B.kinds _ _ hn]; exact h.kind)
    obtain ⟨w, h1, h2, h3, h4, _⟩ := e.evo.data d v _ hn hv'
    cases h1
    obtain ⟨k1, k2, k3⟩ := h.is v hn
    exact ⟨h2.trans k1, h3.trans k2, h4.trans k3⟩

/-- What can be seen of a handle, if it is there. -/
def Good (a : Arena α) : Handle → Seen → Prop
  | .strong d _, .shared b o l => At a d b o l
  | .uniq r, .uniq b o l => r.buf = b ∧ r.off = o ∧ r.len = l
  | .weak d _, .weak d' => d = d'
  | _, _ => False

theorem Good.mono (B : Base a.b.sk) (e : AEvo a a') {h : Handle} {v : Seen} (g : Good a h v) : Good a' h v := by
  cases h <;> cases v <;> first | exact False.elim g | exact g | exact At.mono B e g

/-- Where a call is that is going to return something in `R`. -/
def Lds (W : Nat → Nat → Prop) (R : (Nat → Nat → Slot α) → Res α → List Seen → Prop) (a : Arena α) : Pc α → Prop
  | .done _ => True
  | .new xs => ∀ s b, (∀ i, a.b.slot b i = .absent) → Filled W s b xs → R s .handle [.shared b 0 xs.length]
  | .mutNew xs => ∀ s b, (∀ i, a.b.slot b i = .absent) → Filled W s b xs → R s .handle [.uniq b 0 xs.length]
  | .immut r => R a.b.slot .handle [.shared r.buf r.off r.len]
  | .split s r => R a.b.slot .handle [Seen.half s (.uniq r.buf r.off r.len), Seen.half s.flip (.uniq r.buf r.off r.len)]
  | .nxt .front r => (r.len = 0 → R a.b.slot .none [.uniq r.buf r.off 0]) ∧
      (0 < r.len → ∃ x, (W r.buf r.off ∨ Kept x (a.b.slot r.buf r.off)) ∧
        ∀ y s, (W r.buf r.off ∨ y = x) → R s (.item y) [.uniq r.buf (r.off + 1) (r.len - 1)])
  | .nxt .back r => (r.len = 0 → R a.b.slot .none [.uniq r.buf r.off 0]) ∧
      (0 < r.len → ∃ x, (W r.buf (r.off + r.len - 1) ∨ Kept x (a.b.slot r.buf (r.off + r.len - 1))) ∧
        ∀ y s, (W r.buf (r.off + r.len - 1) ∨ y = x) → R s (.item y) [.uniq r.buf r.off (r.len - 1)])
  | .cut .front n r => (n ≤ r.len → R a.b.slot .handle [.uniq r.buf r.off n, .uniq r.buf (r.off + n) (r.len - n)]) ∧
      (r.len < n → R a.b.slot .panic [.uniq r.buf r.off r.len])
  | .cut .back n r => (n ≤ r.len → R a.b.slot .handle [.uniq r.buf (r.off + n) (r.len - n), .uniq r.buf r.off n]) ∧
      (r.len < n → R a.b.slot .panic [.uniq r.buf r.off r.len])
  | .cl1 d _ | .cl2 d _ | .csInc d | .csLose d _ | .gLoad _ _ d | .gTry _ _ _ _ d | .gPar _ _ _ d | .gCas _ _ _ _ d | .gRet _ _ d =>
      ∃ b o l, At a d b o l ∧ R a.b.slot .handle [.shared b o l]
  | .wait d _ s | .cs d s | .csNew d s | .csCas d s _ => ∃ b o l, At a d b o l ∧ R a.b.slot .handle [Seen.half s (.shared b o l)]
  | .gm0 d _ | .gm1 d _ | .gm2 d _ | .gm3 d _ | .gm4 d _ | .gmOpenC d _ _ | .gmOpenD d _ _ =>
      ∃ b o l, At a d b o l ∧ R a.b.slot .handle [.shared b o l] ∧ R a.b.slot .none [.shared b o l]
  | .im0 d _ | .im1 d _ | .im2 d _ | .imOpen d _ =>
      ∃ b o l, At a d b o l ∧ R a.b.slot .handle [.uniq b o l] ∧ R a.b.slot .err [.shared b o l]
  | .imFg _ _ r _ | .imGate _ r _ | .imOk r _ => R a.b.slot .handle [.uniq r.buf r.off r.len]
  | .dg0 d _ | .dg1 d _ => R a.b.slot .handle [.weak (some d)]
  | .up d => R a.b.slot .none [] ∧ ∀ x, d = some x → x < a.b.sk.next ∧ a.b.sk.kind x = .data ∧
      ∀ v, a.b.sk.node x = some (.data v) → R a.b.slot .handle [.shared v.buf v.off v.len]
  | .wc d _ => R a.b.slot .handle [.weak d]
  | .wd _ => R a.b.slot .unit []

/-- What is specified does not depend on what happens to items after the call. -/
def Mono (W : Nat → Nat → Prop) (R : (Nat → Nat → Slot α) → Res α → List Seen → Prop) : Prop :=
  ∀ s s' r vs, SEvo W s s' → R s r vs → R s' r vs

variable {W : Nat → Nat → Prop} {R : (Nat → Nat → Slot α) → Res α → List Seen → Prop}

theorem Lds.mono (hR : Mono W R) (B : Base a.b.sk) (e : AEvo a a') (s : SEvo W a.b.slot a'.b.slot) {pc : Pc α} (h : Lds W R a pc) :
    Lds W R a' pc := by
  have m : ∀ {r vs}, R a.b.slot r vs → R a'.b.slot r vs := hR _ _ _ _ s
  cases pc with
  | done => trivial
  | new xs => exact fun s' b hb hf => h s' b (fun i => s.absent (hb i)) hf
  | mutNew xs => exact fun s' b hb hf => h s' b (fun i => s.absent (hb i)) hf
  | nxt en r =>
    cases en <;> refine ⟨fun h0 => m (h.1 h0), fun h0 => ?_⟩
    · obtain ⟨x, h1, h2⟩ := h.2 h0; exact ⟨x, s.kept h1, h2⟩
    · obtain ⟨x, h1, h2⟩ := h.2 h0; exact ⟨x, s.kept h1, h2⟩
  | cut en n r => cases en <;> exact ⟨fun h0 => m (h.1 h0), fun h0 => m (h.2 h0)⟩
  | up d =>
    refine ⟨m h.1, fun x hx => ?_⟩
    obtain ⟨h1, h2, h3⟩ := h.2 x hx
    refine ⟨Nat.lt_of_lt_of_le h1 e.evo.next, by rw [e.evo.kind x h1]; exact h2, fun v' hv' => ?_⟩
    cases hn : a.b.sk.node x with
    | none => rw [e.evo.dead x h1 hn] at hv'; cases hv'
    | some n =>
      obtain ⟨v, rfl⟩ : ∃ v, n = .data v := data_of_kind (by rw [← B.kinds _ _ hn]; exact h2)
      obtain ⟨w, e1, e2, e3, e4, _⟩ := e.evo.data x v _ hn hv'
      cases e1
      rw [e2, e3, e4]
      exact m (h3 v hn)
  | cl1 | cl2 | csInc | csLose | gLoad | gTry | gPar | gCas | gRet | wait | cs | csNew | csCas =>
    obtain ⟨b, o, l, h1, h2⟩ := h; exact ⟨b, o, l, h1.mono B e, m h2⟩
  | gm0 | gm1 | gm2 | gm3 | gm4 | gmOpenC | gmOpenD | im0 | im1 | im2 | imOpen =>
    obtain ⟨b, o, l, h1, h2, h3⟩ := h; exact ⟨b, o, l, h1.mono B e, m h2, m h3⟩
  | _ => exact m h

theorem half_same {s : Side} {b o l : Nat} (h : sameNode l s = true) : Seen.half s (.shared b o l) = .shared b o l := by
  cases s
  · have h0 : l = 0 := by simpa [sameNode] using h
    simp [Seen.half, Rng.half, Rng.left, h0]
  · have h0 : l ≤ 1 := by simpa [sameNode] using h
    have h1 : l / 2 = 0 := by omega
    simp [Seen.half, Rng.half, Rng.right, h1]

theorem half_sub {s : Side} (v : DataV) : Seen.half s (.shared v.buf v.off v.len) = .shared v.buf (v.subOff s) (v.subLen s) := by
  cases s <;> simp [Seen.half, Rng.half, Rng.left, Rng.right, DataV.subOff, DataV.subLen, Nat.shiftRight_eq_div_pow]

theorem kid_half {T : List AT} (I : HInv a.b T) {d c : Nat} {v : DataV} {s : Side} (hd : a.b.sk.node d = some (.data v)) (hk : v.kids s = some c) :
    ∃ b o l, At a c b o l ∧ Seen.half s (.shared v.buf v.off v.len) = .shared b o l := by
  have S := I.good.shape.toDShape
  obtain ⟨_, hl, w, hw⟩ := S.dataKid d v s c hd hk
  obtain ⟨h1, h2, _⟩ := S.dataFam d v hd
  obtain ⟨h3, h4, _⟩ := S.dataFam c w hw
  rw [hl] at h3 h4
  have h5 : Rng.mk w.off w.len = (Rng.mk v.off v.len).half s := by rw [h2]; exact h4
  refine ⟨w.buf, w.off, w.len, At.of I.base hw, ?_⟩
  simp only [Seen.half, ← h5, Seen.shared.injEq, and_true]
  rw [h3, h1]; rfl

theorem incS_slot {h h' : Heap α} {x : Nat} (e : h.incS x = .ok h') : h'.slot = h.slot := by obtain ⟨_, rfl⟩ := incS_some e; rfl

theorem incSOpt_slot {h h' : Heap α} {o : Option Nat} (e : h.incSOpt o = .ok h') : h'.slot = h.slot := by
  cases o with
  | none => cases e; rfl
  | some x => exact incS_slot e

/-- These can be seen of these handles. -/
def Fits (a : Arena α) : List Ent → List Seen → Prop
  | [], [] => True
  | e :: es, v :: vs => Good a e.h v ∧ Fits a es vs
  | _, _ => False

theorem root_at {r : Reg} {d : Nat} (B' : Base a'.b.sk) (e : a.root r = (a', d)) : At a' d r.buf r.off r.len ∧ a'.b.slot = a.b.slot := by
  cases e
  exact ⟨At.of (v := ⟨r.buf, r.off, r.len, r.alloc, noKids⟩) B' (upd_same _ _ _), rfl⟩

theorem newBuf_filled (W : Nat → Nat → Prop) (h : Heap α) (xs : List α) : Filled W (newBuf h xs).1.slot (newBuf h xs).2 xs := by
  intro i x hx
  refine .inr (.inl ?_)
  simp only [newBuf, upd_same, hx]

theorem Lds.step {T : List AT} {bh : Option Handle} {pc : Pc α} {n : Next α} (hR : Mono W R) (I : HInv a.b (pcT pc ++ T)) (B' : Base a'.b.sk) (ev : AEvo a a')
    (s : SEvo W a.b.slot a'.b.slot) (hp : pcOK a bh pc) (e : PStep a pc a' n) (h : Lds W R a pc) (hd : pc.isDone = false) :
    (n.push = [] ∧ Lds W R a' n.pc ∧ n.pc.isDone = false) ∨ ∃ r vs, n.pc = .done r ∧ R a'.b.slot r vs ∧ Fits a' n.push vs ∧ (n.push = [] ∨ n.tasks = [] ∨ ∃ en w, pc = .nxt en w) := by
  have B := I.base
  have m : ∀ {r vs}, R a.b.slot r vs → R a'.b.slot r vs := hR _ _ _ _ s
  have go := fun {pc'} (h : Lds W R a pc') => h.mono hR B ev s
  have at' : ∀ {d b o l}, At a d b o l → At a' d b o l := fun h => h.mono B ev
  cases e with
  | done r => cases hd
  | new0 xs hl r a1 d hr e =>
    obtain ⟨h1, h2⟩ := root_at B' e
    refine .inl ⟨rfl, ⟨_, _, _, h1, ?_⟩, rfl⟩
    rw [h2, hr]
    have := h (newBuf a.b xs).1.slot (newBuf a.b xs).2 ?_ (newBuf_filled W a.b xs)
    · rw [hl] at this; exact this
    · exact fun i => I.bufs _ _ (Nat.le_refl _)
  | new1 xs hl r h1 al a1 d eh hr e =>
    obtain ⟨h3, h4⟩ := root_at B' e
    refine .inl ⟨rfl, ⟨_, _, _, h3, ?_⟩, rfl⟩
    rw [h4, hr]
    cases eh
    exact h (newBuf a.b xs).1.slot (newBuf a.b xs).2 (fun i => I.bufs _ _ (Nat.le_refl _)) (newBuf_filled W a.b xs)
  | mutNew xs h1 r e =>
    refine .inr ⟨_, [.uniq r.buf r.off r.len], rfl, ?_, ⟨⟨rfl, rfl, rfl⟩, trivial⟩, .inr (.inl rfl)⟩
    have := h (newBuf a.b xs).1.slot (newBuf a.b xs).2 (fun i => I.bufs _ _ (Nat.le_refl _)) (newBuf_filled W a.b xs)
    simp only [mutFromBox] at e
    split at e
    · cases e; exact this
    · cases e; exact this
  | immut r a1 d e =>
    obtain ⟨h1, h2⟩ := root_at B' e
    exact .inl ⟨rfl, ⟨_, _, _, h1, m h⟩, rfl⟩
  | split sd r h1 new rest e =>
    refine .inr ⟨_, _, rfl, m h, ?_, .inr (.inl rfl)⟩
    simp only [regSplitOff] at e
    obtain ⟨h2, e1, e2⟩ := bind_ok e
    cases pure_ok e2
    cases sd <;> simp [Fits, Good, Seen.half, Side.flip, Rng.half, Rng.left, Rng.right, Nat.shiftRight_eq_div_pow]
  | nxt en r h1 o r' ts re hre e =>
    refine .inr ⟨re, [.uniq r'.buf r'.off r'.len], rfl, ?_, ⟨⟨rfl, rfl, rfl⟩, trivial⟩, .inr (.inr ⟨_, _, rfl⟩)⟩
    simp only [iterNext] at e
    split at e
    · next h0 =>
      cases e; subst hre
      have : R a.b.slot .none [.uniq r.buf r.off 0] := by cases en <;> exact h.1 h0
      simp only [h0]; exact m this
    · next h0 =>
      split at e
      · cases e
      · split at e
        · next x hx =>
          have key : re = .item x ∧ r'.buf = r.buf ∧ (r'.off, r'.len) = (match en with | .front => (r.off + 1, r.len - 1) | .back => (r.off, r.len - 1)) := by
            cases en <;> dsimp only at e <;> split at e <;> cases e <;> subst hre <;> exact ⟨rfl, rfl, rfl⟩
          obtain ⟨rfl, k1, k2⟩ := key
          cases en
          · obtain ⟨x0, h2, h3⟩ := h.2 (by omega)
            obtain ⟨k2, k3⟩ := Prod.mk.inj k2
            simp only at hx
            rw [k1, k2, k3]
            refine h3 x _ (h2.imp id fun h => ?_)
            rw [hx] at h; rcases h with h | h | h <;> cases h; rfl
          · obtain ⟨x0, h2, h3⟩ := h.2 (by omega)
            obtain ⟨k2, k3⟩ := Prod.mk.inj k2
            simp only at hx
            rw [k1, k2, k3]
            refine h3 x _ (h2.imp id fun h => ?_)
            rw [hx] at h; rcases h with h | h | h <;> cases h; rfl
        · cases e
  | cutF k r h1 new rest hn e =>
    refine .inr ⟨_, _, rfl, m (h.1 hn), ?_, .inr (.inl rfl)⟩
    obtain ⟨⟨h2, x, y⟩, e1, e2⟩ := bind_ok e
    cases pure_ok e2
    simp [Fits, Good]
  | cutB k r h1 new rest hn e =>
    refine .inr ⟨_, _, rfl, m (h.1 hn), ?_, .inr (.inl rfl)⟩
    obtain ⟨⟨h2, x, y⟩, e1, e2⟩ := bind_ok e
    cases pure_ok e2
    simp [Fits, Good]
  | cutNo en k r hn =>
    refine .inr ⟨_, [.uniq r.buf r.off r.len], rfl, ?_, ⟨⟨rfl, rfl, rfl⟩, trivial⟩, .inr (.inl rfl)⟩
    cases en <;> exact h.2 hn
  | csSame d sd v h1 hv hs e =>
    obtain ⟨b, o, l, h2, h3⟩ := h
    obtain ⟨rfl, rfl, rfl⟩ := h2.is v (getData_some hv)
    rw [half_same hs] at h3
    exact .inl ⟨rfl, ⟨_, _, _, at' h2, m h3⟩, rfl⟩
  | csKid d sd v c hv hs hk =>
    obtain ⟨b, o, l, h2, h3⟩ := h
    obtain ⟨rfl, rfl, rfl⟩ := h2.is v (getData_some hv)
    obtain ⟨b, o, l, h4, h5⟩ := kid_half I (getData_some hv) hk
    rw [h5] at h3
    exact .inl ⟨rfl, ⟨_, _, _, at' h4, m h3⟩, rfl⟩
  | csWin d sd r v h1 c h2 hv hk e1 e2 =>
    obtain ⟨b, o, l, h3, h4⟩ := h
    obtain ⟨g, v', _, hv', _, hr⟩ := hp
    have hv0 := getData_some hv
    rw [hv0] at hv'; cases hv'
    obtain ⟨rfl, rfl, rfl⟩ := h3.is v hv0
    rw [half_sub] at h4
    have hc : c = a.b.sk.next := by cases e1; rfl
    have hlt := B.lt hv0
    refine .inl ⟨rfl, ⟨_, _, _, At.of (d := c) (v := ⟨r.buf, r.off, r.len, r.alloc, noKids⟩) B' ?_, ?_⟩, rfl⟩
    · have hne : c ≠ d := by omega
      obtain ⟨_, rfl⟩ := incS_some e2
      cases e1
      simp [Arena.newBox, Heap.setNode, upd, hne]
    · rw [hr]; exact m h4
  | csLost d sd r v c hv hk =>
    obtain ⟨b, o, l, h2, h3⟩ := h
    obtain ⟨rfl, rfl, rfl⟩ := h2.is v (getData_some hv)
    obtain ⟨b, o, l, h4, h5⟩ := kid_half I (getData_some hv) hk
    rw [h5] at h3
    exact .inl ⟨rfl, ⟨_, _, _, at' h4, m h3⟩, rfl⟩
  | im2 d g v hv hc =>
    obtain ⟨b, o, l, h2, h3, h4⟩ := h
    obtain ⟨rfl, rfl, rfl⟩ := h2.is v (getData_some hv)
    exact .inl ⟨rfl, m h3, rfl⟩
  | up d h1 hs e =>
    obtain ⟨h2, h3, h4⟩ := h.2 d rfl
    cases hn : a.b.sk.node d with
    | none =>
      have := (I.good.ledger.live d).2 (by omega)
      rw [hn] at this; cases this
    | some nd =>
      obtain ⟨v, rfl⟩ : ∃ v, nd = .data v := data_of_kind (by rw [← B.kinds _ _ hn]; exact h3)
      exact .inl ⟨rfl, ⟨_, _, _, at' (At.of B hn), m (h4 v hn)⟩, rfl⟩
  | gmOpenD d g ok v hv =>
    obtain ⟨b, o, l, h1, h2, h3⟩ := h
    refine .inr ⟨_, [.shared b o l], rfl, ?_, ⟨at' h1, trivial⟩, .inr (.inl rfl)⟩
    cases ok
    · exact m h3
    · exact m h2
  | cl2 | gRet0 =>
    obtain ⟨b, o, l, h1, h2⟩ := h
    exact .inr ⟨_, _, rfl, m h2, ⟨at' h1, trivial⟩, .inr (.inl rfl)⟩
  | gm0No | im0No | imOpen =>
    obtain ⟨b, o, l, h1, h2, h3⟩ := h
    exact .inr ⟨_, _, rfl, m h3, ⟨at' h1, trivial⟩, .inr (.inl rfl)⟩
  | imOk r acc => exact .inr ⟨_, _, rfl, m h, ⟨⟨rfl, rfl, rfl⟩, trivial⟩, .inr (.inl rfl)⟩
  | dg1 | wc | wcN => exact .inr ⟨_, _, rfl, m h, ⟨rfl, trivial⟩, .inr (.inl rfl)⟩
  | upN | upNo => exact .inr ⟨_, [], rfl, m h.1, trivial, .inl rfl⟩
  | wd | wdN => exact .inr ⟨_, [], rfl, m h, trivial, .inl rfl⟩
  | _ => exact .inl ⟨rfl, go h, rfl⟩

end

end Verif.Arc
