import Verif.Rc.Proofs.Disjoint
import Verif.Arc.Spec
/-!
# The data part of the memory, call by call

What handles, calls in flight and pending drops hold is a list of tokens; every operation
on `ArcSliceData` and `SliceAlloc` objects keeps the books balanced.
-/

namespace Verif.Arc
open Verif.Spec (Side Slot Family Rng End)
open Verif.Rc
variable {α : Type}

deriving instance DecidableEq for Rc.Span

/-- Something held outside of the shared memory. -/
inductive AT where
  /-- an `Arc` of slice data or of an allocation -/
  | ref (x : Nat)
  /-- a range of items with its allocation reference -/
  | reg (r : Reg)
  /-- items -/
  | own (s : Span)
  /-- an `Arc<DataGuard>` -/
  | gd (g : Nat)
  /-- a `Weak<DataGuard>` -/
  | wk (g : Nat)
deriving DecidableEq

namespace AT
def S : AT → List Nat
  | .ref x => [x]
  | .reg r => r.alloc.toList
  | _ => []
def G : AT → List Span
  | .reg r => [r.span]
  | .own s => [s]
  | _ => []
def gds : AT → List Nat
  | .gd g => [g]
  | _ => []
def wks : AT → List Nat
  | .wk g => [g]
  | _ => []
end AT

def aS (T : List AT) : List Nat := T.flatMap AT.S
def aG (T : List AT) : List Span := T.flatMap AT.G
def aGd (T : List AT) : List Nat := T.flatMap AT.gds
def aWk (T : List AT) : List Nat := T.flatMap AT.wks

@[simp] theorem aS_nil : aS [] = [] := rfl
@[simp] theorem aG_nil : aG [] = [] := rfl
@[simp] theorem aGd_nil : aGd [] = [] := rfl
@[simp] theorem aWk_nil : aWk [] = [] := rfl
@[simp] theorem aS_cons (t : AT) (T : List AT) : aS (t :: T) = t.S ++ aS T := rfl
@[simp] theorem aG_cons (t : AT) (T : List AT) : aG (t :: T) = t.G ++ aG T := rfl
@[simp] theorem aGd_cons (t : AT) (T : List AT) : aGd (t :: T) = t.gds ++ aGd T := rfl
@[simp] theorem aWk_cons (t : AT) (T : List AT) : aWk (t :: T) = t.wks ++ aWk T := rfl
@[simp] theorem aS_append (T U : List AT) : aS (T ++ U) = aS T ++ aS U := List.flatMap_append ..
@[simp] theorem aG_append (T U : List AT) : aG (T ++ U) = aG T ++ aG U := List.flatMap_append ..
@[simp] theorem aGd_append (T U : List AT) : aGd (T ++ U) = aGd T ++ aGd U := List.flatMap_append ..
@[simp] theorem aWk_append (T U : List AT) : aWk (T ++ U) = aWk T ++ aWk U := List.flatMap_append ..

attribute [simp] AT.S AT.G AT.gds AT.wks

@[simp] theorem aS_own (l : List Span) : aS (l.map .own) = [] := by induction l <;> simp_all
@[simp] theorem aG_own (l : List Span) : aG (l.map .own) = l := by induction l <;> simp_all
@[simp] theorem aGd_own (l : List Span) : aGd (l.map .own) = [] := by induction l <;> simp_all
@[simp] theorem aWk_own (l : List Span) : aWk (l.map .own) = [] := by induction l <;> simp_all
@[simp] theorem aS_ref (l : List Nat) : aS (l.map .ref) = l := by induction l <;> simp_all
@[simp] theorem aG_ref (l : List Nat) : aG (l.map .ref) = [] := by induction l <;> simp_all
@[simp] theorem aGd_ref (l : List Nat) : aGd (l.map .ref) = [] := by induction l <;> simp_all
@[simp] theorem aWk_ref (l : List Nat) : aWk (l.map .ref) = [] := by induction l <;> simp_all
@[simp] theorem aS_gd (l : List Nat) : aS (l.map .gd) = [] := by induction l <;> simp_all
@[simp] theorem aG_gd (l : List Nat) : aG (l.map .gd) = [] := by induction l <;> simp_all
@[simp] theorem aGd_gd (l : List Nat) : aGd (l.map .gd) = l := by induction l <;> simp_all
@[simp] theorem aWk_gd (l : List Nat) : aWk (l.map .gd) = [] := by induction l <;> simp_all
@[simp] theorem aS_wk (l : List Nat) : aS (l.map .wk) = [] := by induction l <;> simp_all
@[simp] theorem aG_wk (l : List Nat) : aG (l.map .wk) = [] := by induction l <;> simp_all
@[simp] theorem aGd_wk (l : List Nat) : aGd (l.map .wk) = [] := by induction l <;> simp_all
@[simp] theorem aWk_wk (l : List Nat) : aWk (l.map .wk) = l := by induction l <;> simp_all

theorem mem_aS {T : List AT} {t : AT} {x : Nat} (ht : t ∈ T) (hx : x ∈ t.S) : x ∈ aS T := List.mem_flatMap.2 ⟨t, ht, hx⟩
theorem mem_aG {T : List AT} {t : AT} {x : Span} (ht : t ∈ T) (hx : x ∈ t.G) : x ∈ aG T := List.mem_flatMap.2 ⟨t, ht, hx⟩
theorem mem_aGd {T : List AT} {t : AT} {x : Nat} (ht : t ∈ T) (hx : x ∈ t.gds) : x ∈ aGd T := List.mem_flatMap.2 ⟨t, ht, hx⟩

/-- The allocation reference of a range is the right one, and is there if needed. -/
def RegOK (k : Skel) (r : Reg) : Prop :=
  (∀ a, r.alloc = some a → k.node a = some (.alloc r.buf)) ∧ (0 < r.len → r.alloc = none → k.zst = true)

/-- Nothing is missing, nothing is too much. -/
structure HInv (h : Heap α) (T : List AT) : Prop where
  good : Good h (aS T) [] (aG T)
  regs : ∀ r, .reg r ∈ T → RegOK h.sk r
  bufs : ∀ b i, h.sk.nbuf ≤ b → h.slot b i = .absent
  only : ∀ x n, h.sk.node x = some n → n.kind = .data ∨ n.kind = .alloc

theorem HInv.perm {h : Heap α} {T T' : List AT} (I : HInv h T) (p : T.Perm T') : HInv h T' where
  good := I.good.perm (p.flatMap_right _) (.refl _) fun b i => owners_perm (p.flatMap_right _) b i
  regs r hr := I.regs r (p.mem_iff.2 hr)
  bufs := I.bufs
  only := I.only

/-! ## How the graph may change -/

/-- Nodes disappear, get children, or are new. -/
structure Evo (k k' : Skel) : Prop where
  zst : k'.zst = k.zst
  next : k.next ≤ k'.next
  nfam : k.nfam ≤ k'.nfam
  lab : ∀ x, x < k.next → k'.lab x = k.lab x
  kind : ∀ x, x < k.next → k'.kind x = k.kind x
  data : ∀ x v n, k.node x = some (.data v) → k'.node x = some n → ∃ v', n = .data v' ∧ v'.buf = v.buf ∧ v'.off = v.off ∧
    v'.len = v.len ∧ v'.alloc = v.alloc ∧ ∀ s c, v.kids s = some c → v'.kids s = some c
  alloc : ∀ x b n, k.node x = some (.alloc b) → k'.node x = some n → n = .alloc b
  dead : ∀ x, x < k.next → k.node x = none → k'.node x = none
  link : ∀ y v' s c, k'.node y = some (.data v') → v'.kids s = some c → c < k.next →
    ∃ v, k.node y = some (.data v) ∧ v.kids s = some c
  new : ∀ x v, k.next ≤ x → k'.node x = some (.data v) →
    (∃ q w, k.node q = some (.data w) ∧ (k.lab q).up (k'.lab x)) ∨ k.nfam ≤ (k'.lab x).fam

theorem Evo.refl {k : Skel} (B : Base k) : Evo k k where
  zst := rfl
  next := Nat.le_refl _
  nfam := Nat.le_refl _
  lab _ _ := rfl
  kind _ _ := rfl
  data x v n h h' := by rw [h] at h'; cases h'; exact ⟨v, rfl, rfl, rfl, rfl, rfl, fun _ _ h => h⟩
  alloc x b n h h' := by rw [h] at h'; cases h'; rfl
  dead _ _ h := h
  link y v s c h e _ := ⟨v, h, e⟩
  new x v h h' := by rw [B.fresh x h] at h'; cases h'

theorem Evo.of_eq {k k' : Skel} (B : Base k) (e : k' = k) : Evo k k' := by subst e; exact .refl B

/-- Only removals. -/
theorem Evo.of_sub {k k' : Skel} (B : Base k) (e : k' = { k with node := k'.node, mem := k'.mem })
    (h : ∀ y m, k'.node y = some m → k.node y = some m) : Evo k k' where
  zst := by rw [e]
  next := by rw [e]; exact Nat.le_refl _
  nfam := by rw [e]; exact Nat.le_refl _
  lab _ _ := by rw [e]
  kind _ _ := by rw [e]
  data x v n h1 h2 := by
    have := h _ _ h2
    rw [h1] at this; cases this; exact ⟨v, rfl, rfl, rfl, rfl, rfl, fun _ _ h => h⟩
  alloc x b n h1 h2 := by have := h _ _ h2; rw [h1] at this; cases this; rfl
  dead x _ h1 := by
    cases h2 : k'.node x with
    | none => rfl
    | some m => have := h _ _ h2; rw [h1] at this; cases this
  link y v s c h1 e _ := ⟨v, h _ _ h1, e⟩
  new x v h1 h2 := by have := h _ _ h2; rw [B.fresh x h1] at this; cases this

theorem Evo.of_shrink {h h' : Heap α} (B : Base h.sk) (s : Shrink h h') : Evo h.sk h'.sk := .of_sub B s.sk s.sub

theorem RegOK.evo {k k' : Skel} {r : Reg} (h : RegOK k r) (e : Evo k k') (hl : ∀ a, r.alloc = some a → ∃ n, k'.node a = some n) :
    RegOK k' r := by
  refine ⟨fun a ha => ?_, fun h1 h2 => by rw [e.zst]; exact h.2 h1 h2⟩
  obtain ⟨n, hn⟩ := hl a ha
  rw [hn, e.alloc a _ n (h.1 a ha) hn]

section
variable {h : Heap α} {T : List AT}

theorem HInv.live (I : HInv h T) {x : Nat} (hx : x ∈ aS T) : ∃ n, h.sk.node x = some n :=
  I.good.ledger.node_of_pos (I.good.ledger.pos_of_tok hx)

theorem HInv.lt (I : HInv h T) {x : Nat} (hx : x ∈ aS T) : x < h.sk.next := by
  obtain ⟨n, hn⟩ := I.live hx; exact I.good.ledger.lt hn

theorem HInv.data (I : HInv h T) {x : Nat} (hx : x ∈ aS T) (hk : h.sk.kind x = .data) : ∃ v, h.sk.node x = some (.data v) := by
  obtain ⟨n, hn⟩ := I.live hx
  have := I.good.shape.kinds _ _ hn
  cases n with
  | data v => exact ⟨v, hn⟩
  | _ => rw [hk] at this; cases this

theorem regs_evo {h' : Heap α} {U : List AT} (I : HInv h T) (e : Evo h.sk h'.sk) (g : Good h' (aS U) [] (aG U))
    {r : Reg} (hr : .reg r ∈ T) (hr' : .reg r ∈ U) : RegOK h'.sk r :=
  (I.regs r hr).evo e fun a ha => g.ledger.node_of_pos (g.ledger.pos_of_tok (mem_aS hr' (by simp [ha])))

/-- `Arc::clone`. -/
theorem HInv.incS (I : HInv h T) {x : Nat} (hx : 0 < h.strong x) :
    ∃ h', h.incS x = .ok h' ∧ HInv h' (.ref x :: T) ∧ h'.sk = h.sk ∧ h'.slot = h.slot := by
  obtain ⟨h', e, g, ek, es⟩ := I.good.incS hx
  refine ⟨h', e, ⟨g, fun r hr => ?_, by rw [ek, es]; exact I.bufs, by rw [ek]; exact I.only⟩, ek, es⟩
  rw [ek]; exact I.regs r (by simpa using hr)

/-- Tokens that weigh the same. -/
theorem HInv.congr (I : HInv h T) {U : List AT} (hs : (aS T).Perm (aS U)) (hg : ∀ b i, owners (aG T) b i = owners (aG U) b i)
    (hr : ∀ r, .reg r ∈ U → .reg r ∈ T ∨ RegOK h.sk r) : HInv h U where
  good := I.good.perm hs (.refl _) hg
  regs r h := (hr r h).elim (I.regs r) id
  bufs := I.bufs
  only := I.only

/-- What a pending drop holds. -/
def taskT : Task → List AT
  | .dropS x => [.ref x]
  | .dropReg r => [.reg r]
  | _ => []

def plain : Task → Prop
  | .dropRcSlice _ _ => False
  | _ => True

theorem flatMap_dropS (l : List Nat) : (l.map Task.dropS).flatMap taskT = l.map .ref := by
  induction l <;> simp_all [taskT]

/-- `Arc::drop`. -/
theorem HInv.dropS (I : HInv h (.ref x :: T)) : ∃ h' ts, dropStrong h x = .ok (h', ts) ∧ HInv h' (ts.flatMap taskT ++ T) ∧
    (∀ t ∈ ts, plain t) ∧ Shrink h h' ∧
    (∀ c, .dropS c ∈ ts → ∃ v s, h.sk.node x = some (.data v) ∧ v.kids s = some c ∧ h.strong x = 1) ∧
    nsum h'.sk Node.cost + (ts.map Task.cost).sum ≤ nsum h.sk Node.cost := by
  have g : Good h (x :: aS T) [] (aG T) := I.good
  have hp := g.ledger.pos_of_tok (y := x) (by simp)
  obtain ⟨n, hx⟩ := g.ledger.node_of_pos hp
  have hlt := g.ledger.lt hx
  by_cases h1 : h.strong x = 1
  · have hcost : nsum (h.kill x).sk Node.cost + n.cost = nsum h.sk Node.cost := nsum_kill hx hlt Node.cost
    have hr : ∀ y m, h.sk.node y = some m → x ∉ m.srefs := fun _ _ hy => g.ledger.no_ref h1 hy
    have hne : ∀ r a, .reg r ∈ T → r.alloc = some a → a ≠ x := by
      rintro r a hr ha rfl
      exact g.ledger.no_tok h1 (mem_aS ‹.reg r ∈ T› (by simp [ha]))
    cases n with
    | data v =>
      refine ⟨h.kill x, (v.kids .L).toList.map .dropS ++ (v.kids .R).toList.map .dropS ++
          [.dropReg ⟨v.buf, v.dropRange.1, v.dropRange.2, v.alloc⟩], ?_, ⟨?_, ?_, I.bufs, ?_⟩, ?_, .kill h x, ?_, ?_⟩
      · simp only [dropStrong]; rw [if_neg (by omega), if_neg (by omega), hx]
      · have g1 := g.kill hx (by simp [Node.kind]) h1
        refine g1.perm ?_ (.refl _) ?_
        · simp only [List.flatMap_append, flatMap_dropS, aS_append, aS_ref]
          simp [Node.srefs, taskT]
        · intro b i
          rw [owners_append, Node.spans, v.dropRange_owns]
          simp only [List.flatMap_append, flatMap_dropS, aG_append, aG_ref]
          simp [taskT, Reg.span]
      · intro r hm
        have hm' : r = ⟨v.buf, v.dropRange.1, v.dropRange.2, v.alloc⟩ ∨ .reg r ∈ T := by
          simp only [List.flatMap_append, List.mem_append] at hm
          rcases hm with ((hm | hm) | hm) | hm
          · cases hk : v.kids .L <;> simp [hk, taskT] at hm
          · cases hk : v.kids .R <;> simp [hk, taskT] at hm
          · simp [taskT] at hm; exact .inl hm
          · exact .inr hm
        rcases hm' with rfl | hm'
        · refine ⟨fun a ha => ?_, fun h2 h3 => g.shape.dataMem x v hx ?_ h3⟩
          · have := g.shape.dataAlloc x v a hx ha
            rw [← this]; refine upd_ne _ _ ?_
            rintro rfl; rw [hx] at this; cases this
          · have hL := v.subLen_le .L; have hR := v.subLen_le .R
            simp only [DataV.dropRange] at h2
            split at h2 <;> simp only at h2 <;> omega
        · have := I.regs r (by simp [hm'])
          refine ⟨fun a ha => ?_, this.2⟩
          rw [← this.1 a ha]; exact upd_ne _ _ (hne r a hm' ha)
      · exact fun y m hy => I.only y m (upd_none_some hy).2
      · intro t ht
        simp only [List.mem_append, List.mem_map, List.mem_singleton] at ht
        rcases ht with (⟨c, _, rfl⟩ | ⟨c, _, rfl⟩) | rfl <;> trivial
      · intro c hc
        simp only [List.mem_append, List.mem_map, List.mem_singleton, Option.mem_toList, Task.dropS.injEq, exists_eq_right,
          reduceCtorEq, or_false] at hc
        rcases hc with hc | hc
        · exact ⟨v, .L, hx, hc, h1⟩
        · exact ⟨v, .R, hx, hc, h1⟩
      · have hL := v.subLen_le .L; have hR := v.subLen_le .R
        have hd : v.dropRange.2 ≤ v.len := by
          simp only [DataV.dropRange]; split <;> simp only <;> omega
        have hk : ∀ o : Option Nat, ((o.toList.map Task.dropS).map Task.cost).sum ≤ 1 := by
          intro o; cases o <;> simp [Task.cost]
        have k1 := hk (v.kids .L); have k2 := hk (v.kids .R)
        simp only [List.map_append, List.sum_append, List.map_cons, List.map_nil, List.sum_cons, List.sum_nil]
        simp only [Node.cost, Task.cost] at hcost ⊢
        simp only [List.map_map] at k1 k2 ⊢
        omega
    | img v => have := I.only x _ hx; simp [Node.kind] at this
    | gmg v => have := I.only x _ hx; simp [Node.kind] at this
    | alloc b =>
      have sh := g.shape.killAlloc hx hr
      have L := g.ledger.kill hx h1
      have L' : Ledger { h.kill x with sk := { (h.kill x).sk with mem := upd h.sk.mem b false } } (aS T) [] (aG T) :=
        Ledger.frame (h := h.kill x) L rfl rfl rfl rfl rfl
      have gg : HInv { h.kill x with sk := { (h.kill x).sk with mem := upd h.sk.mem b false } } T := by
        refine ⟨⟨sh, L'⟩, fun r hm => ?_, I.bufs, fun y m hy => I.only y m (upd_none_some hy).2⟩
        have := I.regs r (by simp [hm])
        refine ⟨fun a ha => ?_, this.2⟩
        rw [← this.1 a ha]; exact upd_ne _ _ (hne r a hm ha)
      have hsub : ∀ c, upd h.sk.mem b false c = true → h.sk.mem c = true := by
        intro c; simp only [upd]; split
        · intro h; cases h
        · exact id
      by_cases hz : h.sk.zst = true
      · have em : upd h.sk.mem b false = h.sk.mem := by
          funext c; simp only [upd]; split
          · next e => subst e; exact (g.shape.memZst hz c).symm
          · rfl
        rw [em] at gg
        refine ⟨h.kill x, [], ?_, gg, by simp, .kill h x, by simp, ?_⟩
        · simp only [dropStrong]; rw [if_neg (by omega), if_neg (by omega), hx]
          show (if h.sk.zst = true then _ else _) = _
          rw [if_pos hz]
        · simp only [List.map_nil, List.sum_nil]; omega
      · have hm := g.shape.allocMem x b hx (by simpa using hz)
        refine ⟨_, [], ?_, gg, by simp, ⟨rfl, fun y m hy => (upd_none_some hy).2, hsub, fun _ _ => .inl rfl⟩, by simp, ?_⟩
        · simp only [dropStrong]; rw [if_neg (by omega), if_neg (by omega), hx]
          show (if h.sk.zst = true then _ else if h.sk.mem b = true then _ else _) = _
          rw [if_neg hz, if_pos hm]; rfl
        · simp only [List.map_nil, List.sum_nil]
          show nsum (h.kill x).sk Node.cost + 0 ≤ _
          omega
  · refine ⟨{ h with strong := upd h.strong x (h.strong x - 1) }, [], ?_, ⟨⟨g.shape, g.ledger.decS h1⟩, ?_, I.bufs, I.only⟩,
      by simp, .of_eq rfl rfl, by simp, ?_⟩
    · simp only [dropStrong]; rw [if_neg (by omega), if_pos h1]
    · exact fun r hr => I.regs r (by simp at hr; simp [hr])
    · simp

/-- The memory of a range with items is there. -/
theorem HInv.accessible (I : HInv h T) {r : Reg} (hr : .reg r ∈ T) (hl : 0 < r.len) : h.accessible r.buf = true := by
  obtain ⟨h1, h2⟩ := I.regs _ hr
  simp only [Heap.accessible]
  cases ha : r.alloc with
  | none => rw [h2 hl ha]; rfl
  | some a =>
    by_cases hz : h.sk.zst = true
    · rw [hz]; rfl
    · rw [I.good.shape.allocMem a _ (h1 a ha) (by simpa using hz)]; simp

/-- Its items are there. -/
theorem HInv.reg_live (I : HInv h T) {r : Reg} (hr : .reg r ∈ T) {i : Nat} (h1 : r.off ≤ i) (h2 : i < r.off + r.len) :
    ∃ a, h.slot r.buf i = .live a :=
  I.good.ledger.item_live (owners_pos (mem_aG hr (by simp)) (g := r.span) h1 h2)

/-- One item of a range goes. -/
theorem HInv.takeItem {r r' : Reg} (I : HInv h (.reg r :: T)) {i : Nat} {s : Slot α} (hs : num s = 0) (h1 : r.off ≤ i)
    (h2 : i < r.off + r.len) (hb : r'.buf = r.buf) (ha : r'.alloc = r.alloc) (hlen : r'.len ≤ r.len)
    (hsp : ∀ b j, r'.span.num b j + (if b = r.buf ∧ j = i then 1 else 0) = r.span.num b j) :
    HInv (h.setSlot r.buf i s) (.reg r' :: T) := by
  obtain ⟨a, hlive⟩ := I.reg_live (List.mem_cons_self ..) h1 h2
  refine ⟨⟨I.good.shape, ?_⟩, ?_, ?_, I.only⟩
  · have L := I.good.ledger
    have L2 : Ledger (h.setSlot r.buf i s) (aS (.reg r :: T)) [] (aG (.reg r' :: T)) := by
      refine L.setSlot ?_ ?_
      · intro b j hne
        have := hsp b j
        rw [if_neg (by rintro ⟨rfl, rfl⟩; exact hne rfl)] at this
        simp only [aG_cons, AT.G, owners_append, owners_cons, owners_nil]; omega
      · have := hsp r.buf i
        rw [if_pos ⟨rfl, rfl⟩] at this
        have e1 : num (h.slot r.buf i) = 1 := by rw [hlive]; rfl
        rw [e1, hs]; simp only [aG_cons, AT.G, owners_append, owners_cons, owners_nil]; omega
    refine L2.congr ?_ (.refl _) fun _ _ => rfl
    simp only [aS_cons, AT.S, ha]; exact .refl _
  · intro r2 ht
    rcases List.mem_cons.1 ht with e | ht
    · cases e
      obtain ⟨a1, a2⟩ := I.regs r (List.mem_cons_self ..)
      exact ⟨fun a e => by rw [hb]; exact a1 a (ha ▸ e), fun e1 e2 => a2 (by omega) (ha ▸ e2)⟩
    · exact I.regs r2 (List.mem_cons_of_mem _ ht)
  · intro b j hbj
    rw [setSlot_slot, if_neg]
    · exact I.bufs b j hbj
    · rintro ⟨rfl, rfl⟩
      rw [I.bufs _ _ hbj] at hlive; cases hlive

/-- An empty range lets its allocation go. -/
theorem HInv.release {r : Reg} (I : HInv h (.reg r :: T)) (hl : r.len = 0) : HInv h (r.alloc.toList.map .ref ++ T) := by
  refine I.congr ?_ ?_ ?_
  · simp
  · intro b i; simp [Reg.span, hl, num_empty]
  · intro r2 hr
    refine .inl ?_
    simp only [List.mem_append, List.mem_map, reduceCtorEq, and_false, exists_false, false_or] at hr
    exact List.mem_cons_of_mem _ hr

/-- One pending drop. -/
theorem HInv.task {t : Task} (I : HInv h (taskT t ++ T)) (hp : plain t) : ∃ h' ts, taskStep h t = .ok (h', ts) ∧
    HInv h' (ts.flatMap taskT ++ T) ∧ (∀ t ∈ ts, plain t) ∧ Shrink h h' ∧
    (∀ c, .dropS c ∈ ts → h.sk.kind c = .alloc ∨
      ∃ x v s, t = .dropS x ∧ h.sk.node x = some (.data v) ∧ v.kids s = some c ∧ h.strong x = 1) ∧
    nsum h'.sk Node.cost + (ts.map Task.cost).sum < nsum h.sk Node.cost + t.cost := by
  cases t with
  | dropS x =>
    obtain ⟨h', ts, e, i, p, s, o, c⟩ := HInv.dropS I
    refine ⟨h', ts, e, i, p, s, fun c hc => ?_, by simp only [Task.cost]; omega⟩
    obtain ⟨v, s, h1, h2, h3⟩ := o c hc
    exact .inr ⟨x, v, s, rfl, h1, h2, h3⟩
  | userCode => exact ⟨h, [], rfl, I, by simp, .refl h, by simp, by simp [Task.cost]⟩
  | dropRcSlice d i => cases hp
  | dropReg r =>
    have I' : HInv h (.reg r :: T) := I
    by_cases hl : r.len = 0
    · refine ⟨h, r.alloc.toList.map .dropS, ?_, ?_, ?_, .refl h, ?_, ?_⟩
      · simp only [taskStep]; rw [if_pos hl]
      · rw [flatMap_dropS]; exact I'.release hl
      · intro t ht
        obtain ⟨a, _, rfl⟩ := List.mem_map.1 ht; trivial
      · intro c hc
        simp only [List.mem_map, Option.mem_toList, Task.dropS.injEq, exists_eq_right] at hc
        exact .inl (I.good.shape.kinds _ _ ((I'.regs r (by simp)).1 c hc))
      · have : ((r.alloc.toList.map Task.dropS).map Task.cost).sum ≤ 1 := by cases r.alloc <;> simp [Task.cost]
        simp only [Task.cost] at this ⊢; omega
    · obtain ⟨a, ha⟩ := I'.reg_live (List.mem_cons_self ..) (i := r.off) (Nat.le_refl _) (by omega)
      have hacc := I'.accessible (List.mem_cons_self ..) (by omega)
      refine ⟨h.setSlot r.buf r.off .dropped, [.userCode, .dropReg { r with off := r.off + 1, len := r.len - 1 }], ?_, ?_, ?_,
        ?_, ?_, ?_⟩
      · simp only [taskStep]; rw [if_neg hl, hacc]; simp only [Bool.not_true, Bool.false_eq_true, if_false, ha]
      · refine I'.takeItem (r' := { r with off := r.off + 1, len := r.len - 1 }) rfl (Nat.le_refl _) (by omega) rfl rfl
          (Nat.sub_le _ _) ?_
        intro b j
        simp only [Reg.span, Span.num]
        grind
      · intro t ht; simp only [List.mem_cons, List.not_mem_nil, or_false] at ht; rcases ht with rfl | rfl <;> trivial
      · refine ⟨rfl, fun _ _ h => h, fun _ h => h, fun b j => ?_⟩
        rw [setSlot_slot]; split
        · next e => obtain ⟨rfl, rfl⟩ := e; exact .inr ⟨⟨a, ha⟩, rfl⟩
        · exact .inl rfl
      · intro c hc; simp at hc
      · simp only [List.map_cons, List.map_nil, List.sum_cons, List.sum_nil, Task.cost, Heap.setSlot]; omega

end
end Verif.Arc
