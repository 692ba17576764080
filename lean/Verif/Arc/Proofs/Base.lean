import Verif.Arc.Proofs.Guard2
/-!
# What every call can rely on

The invariant behind memory safety: all references are accounted for, and a call has live
handles, nodes and chains of parents where it believes to have them.
-/

namespace Verif.Arc
open Verif.Spec (Side Slot Family Rng End)
open Verif.Rc
variable {α : Type}

/-- The data part evolves, and parents do not change. -/
structure AEvo (a a' : Arena α) : Prop where
  evo : Evo a.b.sk a'.b.sk
  par : ∀ x, x < a.b.sk.next → a'.par x = a.par x

/-- Parent pointers point up the tree. -/
structure ParOK (a : Arena α) : Prop where
  par : ∀ x p, a.par x = some p → x < a.b.sk.next ∧ p < a.b.sk.next ∧ a.b.sk.kind p = .data ∧
    ∃ s, a.b.sk.lab x = (a.b.sk.lab p).child s
  kid : ∀ y w s c, a.b.sk.node y = some (.data w) → w.kids s = some c → a.par c = some y
  root : ∀ x, x < a.b.sk.next → a.b.sk.kind x = .data → a.par x = none → (a.b.sk.lab x).path = []

/-- The callers of `guard`: each waits for the guard of its parent. -/
def Chain (a : Arena α) : Nat → List GFrame → Nat → Prop
  | x, [], y => x = y ∧ a.b.sk.kind y = .data ∧ y < a.b.sk.next
  | x, f :: fs, y => x = f.p ∧ a.par f.x = some f.p ∧ Chain a f.x fs y

/-- `c` is a child of the borrowed handle's data. -/
def KidOf (a : Arena α) (bh : Option Handle) (c : Nat) : Prop :=
  ∃ d g s v, bh = some (.strong d g) ∧ a.b.sk.node d = some (.data v) ∧ v.kids s = some c

/-- How many of the children still to be visited cover an item. -/
def fgNum (k : Skel) (b i : Nat) : Fg → Nat
  | .val _ => 0
  | .kid c => match k.node c with
    | some (.data v) => v.span.num b i
    | _ => 0

/-- `forget_items` has collected, or is going to collect, the items of `r`. -/
def ImOK (k : Skel) (r : Reg) (acc : List Span) (todo : List Fg) : Prop :=
  (0 < r.len → r.alloc = none → k.zst = true) ∧ (∀ c, .kid c ∈ todo → k.kind c = .data) ∧
  ∀ b i, owners acc b i + (todo.map (fgNum k b i)).sum = r.span.num b i

/-- What holds at a program point. -/
def pcOK (a : Arena α) (bh : Option Handle) : Pc α → Prop
  | .cl1 d g | .cl2 d g | .wait d g _ | .dg0 d g | .dg1 d g => bh = some (.strong d g)
  | .cs d _ => ∃ g, bh = some (.strong d g)
  | .csInc c | .csLose c _ => KidOf a bh c
  | .csNew d s => ∃ g v, bh = some (.strong d g) ∧ a.b.sk.node d = some (.data v) ∧ ¬ sameNode v.len s = true
  | .csCas d s r => ∃ g v, bh = some (.strong d g) ∧ a.b.sk.node d = some (.data v) ∧ ¬ sameNode v.len s = true ∧
      r = ⟨v.buf, v.subOff s, v.subLen s, if v.subLen s = 0 then none else v.alloc⟩
  | .gLoad x fs y | .gTry x _ _ fs y | .gPar x _ fs y | .gCas x _ _ fs y => Chain a x fs y
  | .gRet _ fs y => ∃ x, Chain a x fs y
  | .gm0 d _ | .gm1 d _ | .gm2 d _ | .gm3 d _ | .gm4 d _ | .gmOpenC d _ _ | .gmOpenD d _ _ => a.b.sk.kind d = .data
  | .im0 d _ | .im1 d _ | .im2 d _ | .imOpen d _ => a.b.sk.kind d = .data
  | .imFg todo _ r acc => ImOK a.b.sk r acc todo
  | .imGate _ r acc | .imOk r acc => ImOK a.b.sk r acc []
  | .up d => ∃ g, bh = some (.weak d g)
  | .wc d g => bh = some (.weak d g)
  | _ => True

/-- What holds of a handle. -/
def entOK (a : Arena α) : Handle → Prop
  | .strong d _ => a.b.sk.kind d = .data
  | .weak d _ => ∀ x, d = some x → x < a.b.sk.next ∧ a.b.sk.kind x = .data
  | .uniq _ => True

def aplain : ATask → Prop
  | .base t => plain t
  | _ => True

/-! ## Stability -/

theorem AEvo.refl {a : Arena α} (B : Base a.b.sk) : AEvo a a := ⟨.refl B, fun _ _ => rfl⟩

theorem Chain.mono {a a' : Arena α} (e : AEvo a a') (P : ParOK a) : ∀ {fs : List GFrame} {x y : Nat}, Chain a x fs y → Chain a' x fs y := by
  intro fs
  induction fs with
  | nil =>
    rintro x y ⟨h1, h2, h3⟩
    exact ⟨h1, by rw [e.evo.kind y h3]; exact h2, Nat.lt_of_lt_of_le h3 e.evo.next⟩
  | cons f fs ih =>
    rintro x y ⟨h1, h2, h3⟩
    exact ⟨h1, by rw [e.par _ (P.par _ _ h2).1]; exact h2, ih h3⟩

theorem Chain.data {a : Arena α} (P : ParOK a) {fs : List GFrame} {x y : Nat} (h : Chain a x fs y) :
    a.b.sk.kind x = .data ∧ x < a.b.sk.next := by
  cases fs with
  | nil => obtain ⟨rfl, h2, h3⟩ := h; exact ⟨h2, h3⟩
  | cons f fs =>
    obtain ⟨rfl, h2, h3⟩ := h
    obtain ⟨_, h4, h5, _⟩ := P.par _ _ h2
    exact ⟨h5, h4⟩

/-- The node a chain starts at is held. -/
theorem Chain.held {a : Arena α} {fs : List GFrame} {x y : Nat} (h : Chain a x fs y) : .ref x ∈ .ref y :: frT fs := by
  cases fs with
  | nil => obtain ⟨rfl, _⟩ := h; exact List.mem_cons_self ..
  | cons f fs => obtain ⟨rfl, _⟩ := h; simp [frT]

theorem entOK.mono {a a' : Arena α} {h : Handle} (e : AEvo a a') (ho : entOK a h)
    (hl : ∀ d g, h = .strong d g → d < a.b.sk.next) : entOK a' h := by
  cases h with
  | strong d g => simp only [entOK] at ho ⊢; rw [e.evo.kind d (hl d g rfl)]; exact ho
  | weak d g =>
    intro x hx
    obtain ⟨h1, h2⟩ := ho x hx
    exact ⟨Nat.lt_of_lt_of_le h1 e.evo.next, by rw [e.evo.kind x h1]; exact h2⟩
  | uniq r => trivial

/-- A data node that is still there is the same except for new children. -/
theorem Evo.keep {k k' : Skel} (e : Evo k k') {d : Nat} {v : DataV} (h : k.node d = some (.data v)) (hl : ∃ n, k'.node d = some n) :
    ∃ v', k'.node d = some (.data v') ∧ v'.buf = v.buf ∧ v'.off = v.off ∧ v'.len = v.len ∧ v'.alloc = v.alloc ∧
      ∀ s c, v.kids s = some c → v'.kids s = some c := by
  obtain ⟨n, hn⟩ := hl
  obtain ⟨v', rfl, h1⟩ := e.data d v n h hn
  exact ⟨v', hn, h1⟩

theorem DataV.subOff_eq {v v' : DataV} (h1 : v'.off = v.off) (h2 : v'.len = v.len) (s : Side) : v'.subOff s = v.subOff s := by
  cases s <;> simp [DataV.subOff, h1, h2]
theorem DataV.subLen_eq {v v' : DataV} (h2 : v'.len = v.len) (s : Side) : v'.subLen s = v.subLen s := by
  cases s <;> simp [DataV.subLen, h2]

theorem KidOf.mono {a a' : Arena α} {bh : Option Handle} {c : Nat} (e : AEvo a a') (h : KidOf a bh c)
    (hl : ∀ d g, bh = some (.strong d g) → ∃ n, a'.b.sk.node d = some n) : KidOf a' bh c := by
  obtain ⟨d, g, s, v, h1, h2, h3⟩ := h
  obtain ⟨v', h4, _, _, _, _, h5⟩ := e.evo.keep h2 (hl d g h1)
  exact ⟨d, g, s, v', h1, h4, h5 s c h3⟩

theorem ImOK.mono {k k' : Skel} {r : Reg} {acc : List Span} {todo : List Fg} (e : Evo k k') (h : ImOK k r acc todo)
    (hl : ∀ c, .kid c ∈ todo → (∃ n, k.node c = some n) ∧ ∃ n, k'.node c = some n) (B : Base k) : ImOK k' r acc todo := by
  obtain ⟨h1, h2, h3⟩ := h
  refine ⟨fun a b => by rw [e.zst]; exact h1 a b, fun c hc => ?_, fun b i => ?_⟩
  · obtain ⟨⟨n, hn⟩, _⟩ := hl c hc
    rw [e.kind c (B.lt hn)]; exact h2 c hc
  · rw [← h3 b i]
    congr 2
    refine List.map_congr_left fun f hf => ?_
    cases f with
    | val w => rfl
    | kid c =>
      obtain ⟨⟨n, hn⟩, hn'⟩ := hl c hf
      obtain ⟨v, rfl⟩ : ∃ v, n = .data v := data_of_kind (by rw [← B.kinds _ _ hn]; exact h2 c hf)
      obtain ⟨v', h4, e1, e2, e3, _⟩ := e.keep hn hn'
      simp only [fgNum, hn, h4, DataV.span, e1, e2, e3]

/-- Program points survive what other calls do. -/
theorem pcOK.mono {a a' : Arena α} {bh : Option Handle} {pc : Pc α} (e : AEvo a a') (P : ParOK a) (B : Base a.b.sk) (h : pcOK a bh pc)
    (hb : ∀ d g, bh = some (.strong d g) → ∃ n, a'.b.sk.node d = some n)
    (hl : ∀ x, .ref x ∈ pcT pc → (∃ n, a.b.sk.node x = some n) ∧ ∃ n, a'.b.sk.node x = some n) : pcOK a' bh pc := by
  have hk : ∀ d, .ref d ∈ pcT pc → a.b.sk.kind d = .data → a'.b.sk.kind d = .data := by
    intro d hd h
    obtain ⟨⟨n, hn⟩, _⟩ := hl d hd
    rw [e.evo.kind d (B.lt hn)]; exact h
  cases pc with
  | cl1 | cl2 | wait | dg0 | dg1 | cs | up | wc => exact h
  | csInc c => exact KidOf.mono e h hb
  | csLose c r => exact KidOf.mono e h hb
  | csNew d s =>
    obtain ⟨g, v, h1, h2, h3⟩ := h
    obtain ⟨v', h4, _, _, e3, _⟩ := e.evo.keep h2 (hb d g h1)
    exact ⟨g, v', h1, h4, by rw [e3]; exact h3⟩
  | csCas d s r =>
    obtain ⟨g, v, h1, h2, h3, h5⟩ := h
    obtain ⟨v', h4, e1, e2, e3, e4, _⟩ := e.evo.keep h2 (hb d g h1)
    exact ⟨g, v', h1, h4, by rw [e3]; exact h3, by rw [h5, DataV.subOff_eq e2 e3, DataV.subLen_eq e3, e1, e4]⟩
  | gLoad x fs y => exact Chain.mono e P h
  | gTry x b o fs y => exact Chain.mono e P h
  | gPar x b fs y => exact Chain.mono e P h
  | gCas x b o fs y => exact Chain.mono e P h
  | gRet g fs y => obtain ⟨x, h⟩ := h; exact ⟨x, Chain.mono e P h⟩
  | gm0 d g | gm1 d g | gm2 d g | gm3 d g | gm4 d g | gmOpenC d g _ | gmOpenD d g _ | im0 d g | im1 d g | im2 d g | imOpen d g =>
    exact hk d (by simp [pcT]) h
  | imFg todo g r acc =>
    exact ImOK.mono e.evo h (fun c hc => hl c (by
      simp only [pcT, List.mem_cons, List.mem_append, List.mem_map]
      exact .inr (.inr (.inr ⟨.kid c, hc, rfl⟩)))) B
  | imGate g r acc => exact ImOK.mono e.evo h (by simp) B
  | imOk r acc => exact ImOK.mono e.evo h (by simp) B
  | _ => trivial

theorem pcOK.any {a : Arena α} {bh : Option Handle} {pc : Pc α} (h : pcOK a none pc) : pcOK a bh pc := by
  cases pc <;> first | exact h | (simp [pcOK, KidOf] at h)

/-- No new data nodes, the same parents. -/
theorem ParOK.evo {a a' : Arena α} (P : ParOK a) (e : AEvo a a') (hn : ∀ x, a.b.sk.next ≤ x → x < a'.b.sk.next → a'.b.sk.kind x ≠ .data)
    (hp : a'.par = a.par) (hk : ∀ y w s c, a'.b.sk.node y = some (.data w) → w.kids s = some c → c < a.b.sk.next) : ParOK a' where
  par x p h := by
    rw [hp] at h
    obtain ⟨h1, h2, h3, s, h4⟩ := P.par x p h
    have := e.evo.next
    exact ⟨by omega, by omega, by rw [e.evo.kind p h2]; exact h3, s, by rw [e.evo.lab x h1, e.evo.lab p h2]; exact h4⟩
  kid y w s c h1 h2 := by
    obtain ⟨v, h3, h4⟩ := e.evo.link y w s c h1 h2 (hk y w s c h1 h2)
    rw [hp]; exact P.kid y v s c h3 h4
  root x h1 h2 h3 := by
    rw [hp] at h3
    have h1' : x < a.b.sk.next := Nat.lt_of_not_le fun hx => hn x hx h1 h2
    rw [e.evo.kind x h1'] at h2
    rw [e.evo.lab x h1']; exact P.root x h1' h2 h3

theorem ParOK.same {a : Arena α} {h' : Heap α} {T : List AT} (P : ParOK a) (e : Evo a.b.sk h'.sk) (hn : h'.sk.next = a.b.sk.next)
    (I : HInv h' T) : AEvo a (a.withB h') ∧ ParOK (a.withB h') := by
  have e' : AEvo a (a.withB h') := ⟨e, fun _ _ => rfl⟩
  refine ⟨e', P.evo e' (fun x h1 h2 => ?_) rfl ?_⟩
  · simp only [Arena.withB, hn] at h2; omega
  intro y w s c h1 h2
  obtain ⟨_, _, vc, h3⟩ := I.good.shape.dataKid y w s c h1 h2
  have := I.good.ledger.lt h3
  rw [← hn]; exact this

/-- Only guards change. -/
theorem ParOK.eq {a a' : Arena α} (P : ParOK a) (h1 : a'.b = a.b) (h2 : a'.par = a.par) : ParOK a' where
  par := by rw [h1, h2]; exact P.par
  kid := by rw [h1, h2]; exact P.kid
  root := by rw [h1, h2]; exact P.root

theorem AEvo.eq {a a' : Arena α} (B : Base a.b.sk) (h1 : a'.b = a.b) (h2 : a'.par = a.par) : AEvo a a' :=
  ⟨by rw [h1]; exact .refl B, fun _ _ => by rw [h2]⟩

theorem AEvo.trans {a b c : Arena α} (B : Base a.b.sk) (B' : Base b.b.sk) (B'' : Base c.b.sk) (h1 : AEvo a b) (h2 : AEvo b c) : AEvo a c :=
  ⟨.trans B B' B'' h1.evo h2.evo, fun x hx => (h2.par x (Nat.lt_of_lt_of_le hx h1.evo.next)).trans (h1.par x hx)⟩

theorem HInv.base {h : Heap α} {T : List AT} (I : HInv h T) : Base h.sk := I.good.shape.toBase

/-- Guards weigh nothing in the data part. -/
def AT.heavy : AT → Bool
  | .gd _ | .wk _ => false
  | _ => true

theorem aS_heavy (T : List AT) : aS (T.filter AT.heavy) = aS T := by
  induction T with
  | nil => rfl
  | cons t T ih => cases t <;> simp [List.filter_cons, AT.heavy, ih]
theorem aG_heavy (T : List AT) : aG (T.filter AT.heavy) = aG T := by
  induction T with
  | nil => rfl
  | cons t T ih => cases t <;> simp [List.filter_cons, AT.heavy, ih]

theorem HInv.count {h : Heap α} {T U : List AT} (I : HInv h T) (hc : ∀ t : AT, t.heavy = true → U.count t = T.count t) : HInv h U := by
  have p : (T.filter AT.heavy).Perm (U.filter AT.heavy) := by
    rw [List.perm_iff_count]
    intro t
    by_cases ht : t.heavy = true
    · rw [List.count_filter ht, List.count_filter ht, hc t ht]
    · rw [List.count_eq_zero.2, List.count_eq_zero.2] <;> simp [ht]
  refine I.congr ?_ ?_ ?_
  · rw [← aS_heavy T, ← aS_heavy U]; exact p.flatMap_right _
  · intro b i; rw [← aG_heavy T, ← aG_heavy U]; exact owners_perm (p.flatMap_right _) b i
  · intro r hr
    refine .inl (List.count_pos_iff.1 ?_)
    rw [← hc _ rfl]; exact List.count_pos_iff.2 hr

theorem count_gd {t : AT} (ht : t.heavy = true) (l : List Nat) : (l.map AT.gd).count t = 0 := by
  rw [List.count_eq_zero]; intro h
  obtain ⟨g, _, rfl⟩ := List.mem_map.1 h; cases ht
theorem count_wk {t : AT} (ht : t.heavy = true) (l : List Nat) : (l.map AT.wk).count t = 0 := by
  rw [List.count_eq_zero]; intro h
  obtain ⟨g, _, rfl⟩ := List.mem_map.1 h; cases ht
theorem gd_beq {t : AT} (ht : t.heavy = true) (g : Nat) : (AT.gd g == t) = false := by
  rw [beq_eq_false_iff_ne]; rintro rfl; cases ht
theorem wk_beq {t : AT} (ht : t.heavy = true) (g : Nat) : (AT.wk g == t) = false := by
  rw [beq_eq_false_iff_ne]; rintro rfl; cases ht

/-! ## One pending drop -/

theorem flatMap_base (ts : List Task) : (ts.map ATask.base).flatMap ataskT = ts.flatMap taskT := by
  induction ts with
  | nil => rfl
  | cons t ts ih => simp only [List.map_cons, List.flatMap_cons, ih]; rfl

theorem base_task {a : Arena α} {T : List AT} {t : ATask} (I : HInv a.b (ataskT t ++ T)) (P : ParOK a) (ht : aplain t)
    (hg : ∀ g, .gd g ∈ ataskT t → ∃ v, a.guard g = some v ∧ a.gS g ≠ 0) :
    ∃ a' ts, ataskStep a t = .ok (a', ts) ∧ HInv a'.b (ts.flatMap ataskT ++ T) ∧ AEvo a a' ∧ ParOK a' ∧ ∀ t ∈ ts, aplain t := by
  cases t with
  | base t =>
    obtain ⟨h', ts, e, I', hp, hs, _⟩ := HInv.task (t := t) I ht
    have hn : h'.sk.next = a.b.sk.next := by rw [hs.sk]
    obtain ⟨e1, e2⟩ := P.same (.of_shrink I.base hs) hn I'
    refine ⟨a.withB h', ts.map .base, ?_, ?_, e1, e2, ?_⟩
    · simp [ataskStep, e, bind, Except.bind, pure, Except.pure]
    · rw [flatMap_base]; exact I'
    · intro t ht; obtain ⟨t, h1, rfl⟩ := List.mem_map.1 ht; exact hp t h1
  | slice d g =>
    have I1 : HInv a.b (.ref d :: (.gd g :: T)) := I
    obtain ⟨h', ts, e, I', hp, hs, _⟩ := I1.dropS
    have hn : h'.sk.next = a.b.sk.next := by rw [hs.sk]
    obtain ⟨e1, e2⟩ := P.same (.of_shrink I.base hs) hn I'
    refine ⟨a.withB h', ts.map .base ++ [.guard g], ?_, ?_, e1, e2, ?_⟩
    · simp [ataskStep, e, bind, Except.bind, pure, Except.pure]
    · refine HInv.count I' fun t ht => ?_
      simp only [List.flatMap_append, flatMap_base, List.count_append, List.flatMap_cons, List.flatMap_nil, ataskT, List.count_cons,
        List.count_nil, List.append_nil]; omega
    · intro t ht
      simp only [List.mem_append, List.mem_map, List.mem_singleton] at ht
      rcases ht with ⟨t, h1, rfl⟩ | rfl
      · exact hp t h1
      · trivial
  | guard g =>
    obtain ⟨v, hv, h0⟩ := hg g (by simp [ataskT])
    by_cases h1 : a.gS g = 1
    · refine ⟨{ a with gS := upd a.gS g 0, guard := upd a.guard g none }, v.parent.toList.map .guard, ?_, ?_,
        .eq I.base rfl rfl, P.eq rfl rfl, ?_⟩
      · simp only [ataskStep, Arena.dropG]; rw [if_neg h0, if_neg (by omega), hv]
      · refine HInv.count (T := ataskT (.guard g) ++ T) I fun t ht => ?_
        cases v.parent <;> simp [ataskT, gd_beq ht, List.count_cons]
      · intro t ht; obtain ⟨x, _, rfl⟩ := List.mem_map.1 ht; trivial
    · refine ⟨{ a with gS := upd a.gS g (a.gS g - 1) }, [], ?_, ?_, .eq I.base rfl rfl, P.eq rfl rfl, by simp⟩
      · simp only [ataskStep, Arena.dropG]; rw [if_neg h0, if_pos h1]
      · refine HInv.count (T := ataskT (.guard g) ++ T) I fun t ht => ?_
        simp [ataskT, gd_beq ht, List.count_cons]

/-! ## New roots -/

theorem base_root {a : Arena α} {T : List AT} {r : Reg} (I : HInv a.b (.reg r :: T)) (P : ParOK a) :
    ∃ a', a.root r = (a', a.b.sk.next) ∧ HInv a'.b (.ref a.b.sk.next :: T) ∧ AEvo a a' ∧ ParOK a' ∧
      a'.b.sk.kind a.b.sk.next = .data ∧ a.b.sk.next < a'.b.sk.next := by
  obtain ⟨h', e, I', ev, es, en, el, ek, ef, eo⟩ := I.root
  have hkd : h'.sk.kind a.b.sk.next = .data := I'.good.shape.kinds _ _ ek
  have e' : AEvo a ({ a with b := h', par := upd a.par a.b.sk.next none }.newBox a.b.sk.next none) :=
    ⟨ev, fun x hx => upd_ne _ _ (by omega)⟩
  refine ⟨{ a with b := h', par := upd a.par a.b.sk.next none }.newBox a.b.sk.next none, ?_, I', e', ?_, hkd, ?_⟩
  · have e2 : ((newFam a.b ⟨r.buf, ⟨r.off, r.len⟩, r.alloc.isSome⟩).1.rcNew (.data ⟨r.buf, r.off, r.len, r.alloc, noKids⟩)
        ⟨(newFam a.b ⟨r.buf, ⟨r.off, r.len⟩, r.alloc.isSome⟩).2, []⟩) = (h', a.b.sk.next) := e
    simp only [Arena.root, e2]
  · constructor
    · intro x p hx
      have hx' : upd a.par a.b.sk.next none x = some p := hx
      have hne : x ≠ a.b.sk.next := by rintro rfl; rw [upd_same] at hx'; cases hx'
      rw [upd_ne _ _ hne] at hx'
      obtain ⟨h1, h2, h3, s, h4⟩ := P.par x p hx'
      refine ⟨?_, ?_, ?_, s, ?_⟩
      · show x < h'.sk.next; omega
      · show p < h'.sk.next; omega
      · show h'.sk.kind p = _; rw [ev.kind p h2]; exact h3
      · show h'.sk.lab x = (h'.sk.lab p).child s; rw [ev.lab x h1, ev.lab p h2]; exact h4
    · intro y w s c hy hc
      show upd a.par a.b.sk.next none c = some y
      rcases eo y _ hy with rfl | hy'
      · have : h'.sk.node a.b.sk.next = _ := hy
        rw [ek] at this; cases this; cases hc
      · obtain ⟨_, _, vc, h3⟩ := I.good.shape.dataKid y w s c hy' hc
        have := I.good.ledger.lt h3
        rw [upd_ne _ _ (by omega)]; exact P.kid y w s c hy' hc
    · intro x h1 h2 h3
      have h1' : x < h'.sk.next := h1
      have h2' : h'.sk.kind x = .data := h2
      have h3' : upd a.par a.b.sk.next none x = none := h3
      show (h'.sk.lab x).path = []
      by_cases hx : x = a.b.sk.next
      · subst hx; rw [el]
      · rw [upd_ne _ _ hx] at h3'
        have hlt : x < a.b.sk.next := by omega
        rw [ev.kind x hlt] at h2'
        rw [ev.lab x hlt]; exact P.root x hlt h2' h3'
  · show a.b.sk.next < h'.sk.next; omega

end Verif.Arc
