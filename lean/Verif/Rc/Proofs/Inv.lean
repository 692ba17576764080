import Verif.Rc.Proofs.Funcs2
/-!
# The invariant of the heap

`Tok` is something held outside of the heap: by a handle of the program, or by a pending
drop. The invariant says that the heap is well-formed and that all references are accounted
for by the values in the heap and by the tokens.
-/

namespace Verif.Rc
open Verif.Spec (Side Slot Family Rng)
variable {α : Type}

/-! ## Chains -/

section
variable {k : Skel}

/-- Slice data below other slice data is referred to by its parent. -/
theorem Shape.data_parent (S : Shape k) {q x : Nat} {w v : DataV} (hq : k.node q = some (.data w))
    (hx : k.node x = some (.data v)) (hu : (k.lab q).up (k.lab x)) (hne : k.lab q ≠ k.lab x) :
    ∃ y u s, k.node y = some (.data u) ∧ u.kids s = some x := by
  generalize hn : (k.lab x).path.length - (k.lab q).path.length = n
  induction n generalizing q w with
  | zero =>
    rcases Lab.up_cases hu with e | ⟨s, e⟩
    · exact absurd e hne
    · have := Lab.up_len e
      simp only [Lab.child, List.length_cons] at this; omega
  | succ n ih =>
    rcases Lab.up_cases hu with e | ⟨s, e⟩
    · exact absurd e hne
    · have h1 := S.dataDown q w x v s hq hx e
      cases hc : w.kids s with
      | none => rw [hc] at h1; cases h1
      | some c =>
        obtain ⟨_, h3, vc, h4⟩ := S.dataKid q w s c hq hc
        by_cases h5 : k.lab c = k.lab x
        · have := S.dataUniq _ _ _ _ h4 hx h5
          subst this; exact ⟨q, w, s, hq, hc⟩
        · refine ih h4 (by rw [h3]; exact e) h5 ?_
          rw [h3]; simp only [Lab.child, List.length_cons]; omega

/-- There is a guard for every label above the label of a guard. -/
theorem Shape.img_at (S : Shape k) {m : Lab} (n : Nat) : ∀ {j : Nat} {w : ImgV}, k.node j = some (.img w) → m.up (k.lab j) →
    (k.lab j).path.length = n → ∃ y u, k.node y = some (.img u) ∧ k.lab y = m := by
  induction n with
  | zero =>
    intro j w hj hu hn
    rcases Lab.up_cases hu with e | ⟨s, e⟩
    · exact ⟨j, w, hj, e.symm⟩
    · have := Lab.up_len e
      simp only [Lab.child, List.length_cons] at this; omega
  | succ n ih =>
    intro j w hj hu hn
    cases hp : w.parent with
    | none => have := S.imgRoot j w hj hp; rw [this] at hn; cases hn
    | some y =>
      obtain ⟨_, ⟨s, h2⟩, vy, h3⟩ := S.imgPar j w y hj hp
      rw [h2] at hu hn
      rcases Lab.up_child_iff.1 hu with e | e
      · exact ⟨j, w, hj, h2.trans e.symm⟩
      · exact ih h3 e (by simp only [Lab.child, List.length_cons] at hn; omega)

theorem Shape.gmg_at (S : Shape k) {m : Lab} (n : Nat) : ∀ {j : Nat} {w : GmgV}, k.node j = some (.gmg w) → m.up (k.lab j) →
    (k.lab j).path.length = n → ∃ y u, k.node y = some (.gmg u) ∧ k.lab y = m := by
  induction n with
  | zero =>
    intro j w hj hu hn
    rcases Lab.up_cases hu with e | ⟨s, e⟩
    · exact ⟨j, w, hj, e.symm⟩
    · have := Lab.up_len e
      simp only [Lab.child, List.length_cons] at this; omega
  | succ n ih =>
    intro j w hj hu hn
    cases hp : w.parent with
    | none => have := S.gmgRoot j w hj hp; rw [this] at hn; cases hn
    | some y =>
      obtain ⟨y, s⟩ := y
      obtain ⟨_, h2, vy, h3⟩ := S.gmgPar j w y s hj hp
      rw [h2] at hu hn
      rcases Lab.up_child_iff.1 hu with e | e
      · exact ⟨j, w, hj, h2.trans e.symm⟩
      · exact ih h3 e (by simp only [Lab.child, List.length_cons] at hn; omega)

/-- A guard with guards below is referred to by one of them. -/
theorem Shape.img_ref (S : Shape k) {i j : Nat} {v w : ImgV} (hi : k.node i = some (.img v)) (hj : k.node j = some (.img w))
    (hu : (k.lab i).up (k.lab j)) (hne : k.lab i ≠ k.lab j) : ∃ y u, k.node y = some (.img u) ∧ u.parent = some i := by
  rcases Lab.up_cases hu with e | ⟨s, e⟩
  · exact absurd e hne
  · obtain ⟨y, u, hy, hl⟩ := S.img_at _ hj e rfl
    cases hp : u.parent with
    | none => have := S.imgRoot y u hy hp; rw [hl] at this; cases this
    | some z =>
      obtain ⟨_, ⟨t, h2⟩, vz, h3⟩ := S.imgPar y u z hy hp
      rw [hl] at h2
      rw [S.imgUniq _ _ _ _ hi h3 (Lab.child_inj h2).1]
      exact ⟨y, u, hy, hp⟩

theorem Shape.gmg_ref (S : Shape k) {i j : Nat} {v w : GmgV} (hi : k.node i = some (.gmg v)) (hj : k.node j = some (.gmg w))
    (hu : (k.lab i).up (k.lab j)) (hne : k.lab i ≠ k.lab j) : ∃ y u s, k.node y = some (.gmg u) ∧ u.parent = some (i, s) := by
  rcases Lab.up_cases hu with e | ⟨s, e⟩
  · exact absurd e hne
  · obtain ⟨y, u, hy, hl⟩ := S.gmg_at _ hj e rfl
    cases hp : u.parent with
    | none => have := S.gmgRoot y u hy hp; rw [hl] at this; cases this
    | some z =>
      obtain ⟨z, t⟩ := z
      obtain ⟨_, h2, vz, h3⟩ := S.gmgPar y u z t hy hp
      rw [hl] at h2
      have := S.gmgUniq _ _ _ _ hi h3 (Lab.child_inj h2).1
      subst this
      exact ⟨y, u, t, hy, hp⟩

/-- The kinds of referents. -/
theorem Shape.ref_kind (S : Shape k) {y x : Nat} {n : Node} (hy : k.node y = some n) (hm : x ∈ n.srefs) :
    match n with
    | .data v => (∃ s, v.kids s = some x ∧ k.kind x = .data) ∨ (v.alloc = some x ∧ k.kind x = .alloc)
    | .img v => (v.parent = some x ∧ k.kind x = .img) ∨ (v.gmg = x ∧ k.kind x = .gmg)
    | .gmg v => ∃ s, v.parent = some (x, s) ∧ k.kind x = .gmg
    | .alloc _ => False := by
  cases n with
  | data v =>
    simp only [Node.srefs, List.mem_append, Option.mem_toList] at hm
    rcases hm with (hm | hm) | hm
    · obtain ⟨_, _, vc, h⟩ := S.dataKid y v .L x hy hm
      exact .inl ⟨.L, hm, S.kinds _ _ h⟩
    · obtain ⟨_, _, vc, h⟩ := S.dataKid y v .R x hy hm
      exact .inl ⟨.R, hm, S.kinds _ _ h⟩
    · exact .inr ⟨hm, S.kinds _ _ (S.dataAlloc y v x hy hm)⟩
  | img v =>
    simp only [Node.srefs, List.mem_append, Option.mem_toList, List.mem_singleton] at hm
    rcases hm with hm | hm
    · obtain ⟨_, _, vc, h⟩ := S.imgPar y v x hy hm
      exact .inl ⟨hm, S.kinds _ _ h⟩
    · subst hm
      obtain ⟨_, vc, h⟩ := S.imgGmg y v hy
      exact .inr ⟨rfl, S.kinds _ _ h⟩
  | gmg v =>
    simp only [Node.srefs, List.mem_map, Option.mem_toList] at hm
    obtain ⟨⟨p, s⟩, hm2, rfl⟩ := hm
    obtain ⟨_, _, vc, h⟩ := S.gmgPar y v p s hy hm2
    exact ⟨s, hm2, S.kinds _ _ h⟩
  | alloc b => cases hm

/-- Slice data has at most one parent. -/
theorem Shape.data_refs_le (S : Shape k) {x : Nat} (hk : k.kind x = .data) : nsum k (fun n => n.srefs.count x) ≤ 1 := by
  -- every node counts at most one
  have hone : ∀ y n, k.node y = some n → n.srefs.count x ≤ 1 := by
    intro y n hy
    apply Nat.le_of_not_lt; intro hlt
    have hm : x ∈ n.srefs := List.count_pos_iff.1 (by omega)
    have h1 := S.ref_kind hy hm
    cases n with
    | data v =>
      simp only [Node.srefs, List.count_append] at hlt
      have hal : v.alloc.toList.count x = 0 := by
        rw [List.count_eq_zero]; intro h
        simp only [Option.mem_toList] at h
        have := S.kinds _ _ (S.dataAlloc y v x hy h)
        rw [hk] at this; cases this
      have hc : ∀ o : Option Nat, o.toList.count x ≤ 1 := by
        intro o; cases o <;> simp [List.count_cons]; split <;> omega
      have hL := hc (v.kids .L); have hR := hc (v.kids .R)
      have eL : v.kids .L = some x := by
        have : x ∈ (v.kids .L).toList := List.count_pos_iff.1 (by omega)
        simpa using this
      have eR : v.kids .R = some x := by
        have : x ∈ (v.kids .R).toList := List.count_pos_iff.1 (by omega)
        simpa using this
      have a1 := (S.dataKid y v .L x hy eL).2.1
      have a2 := (S.dataKid y v .R x hy eR).2.1
      have := (Lab.child_inj (a1.symm.trans a2)).2
      cases this
    | img v => rcases h1 with h1 | h1 <;> (rw [hk] at h1; cases h1.2)
    | gmg v => obtain ⟨s, h1⟩ := h1; rw [hk] at h1; cases h1.2
    | alloc b => exact h1
  apply Nat.le_of_not_lt; intro hlt
  obtain ⟨y, n, hyl, hy, hpos⟩ := nsum_pos (k := k) (f := fun n => n.srefs.count x) (by omega)
  -- there is a second one
  have h2 : ∃ z m, z ≠ y ∧ k.node z = some m ∧ 0 < m.srefs.count x := by
    have := nsum_kill hy hyl (fun n => n.srefs.count x)
    have h3 := hone y n hy
    obtain ⟨z, m, hzl, hz, hp⟩ := nsum_pos (k := { k with node := upd k.node y none }) (f := fun n => n.srefs.count x)
      (by omega)
    obtain ⟨h4, h5⟩ := upd_none_some hz
    exact ⟨z, m, h4, h5, hp⟩
  obtain ⟨z, m, hzy, hz, hp⟩ := h2
  have par : ∀ y n, k.node y = some n → 0 < n.srefs.count x → ∃ v s, n = .data v ∧ k.lab x = (k.lab y).child s := by
    intro y n hy hp
    have h1 := S.ref_kind hy (List.count_pos_iff.1 hp)
    cases n with
    | data v =>
      rcases h1 with ⟨s, h1, _⟩ | h1
      · exact ⟨v, s, rfl, (S.dataKid y v s x hy h1).2.1⟩
      · rw [hk] at h1; cases h1.2
    | img v => rcases h1 with h1 | h1 <;> (rw [hk] at h1; cases h1.2)
    | gmg v => obtain ⟨s, h1⟩ := h1; rw [hk] at h1; cases h1.2
    | alloc b => exact absurd h1 id
  obtain ⟨v, s, rfl, e1⟩ := par y n hy hpos
  obtain ⟨w, t, rfl, e2⟩ := par z m hz hp
  exact hzy (S.dataUniq _ _ _ _ hz hy (Lab.child_inj (e2.symm.trans e1)).1)

end

/-! ## Tokens -/

/-- Something held outside of the heap. -/
inductive Tok where
  /-- an `RcSlice` -/
  | strong (d i : Nat)
  /-- a `WeakSlice` -/
  | weak (d : Option Nat) (g : Nat)
  /-- an `Rc` about to be dropped -/
  | loose (x : Nat)
  /-- a range of items with its allocation reference -/
  | reg (r : Reg)

namespace Tok

def S : Tok → List Nat
  | .strong d i => [d, i]
  | .weak _ g => [g]
  | .loose x => [x]
  | .reg r => r.alloc.toList

def W : Tok → List Nat
  | .weak d _ => d.toList
  | _ => []

def G : Tok → List Span
  | .reg r => [r.span]
  | _ => []

end Tok

/-- What a token refers to fits together. -/
def TokOK (k : Skel) : Tok → Prop
  | .strong d i => k.kind d = .data ∧ k.kind i = .img ∧ k.lab d = k.lab i
  | .weak d g => k.kind g = .gmg ∧ (d = none → ∀ q w, k.node q = some (.data w) → (k.lab q).fam ≠ (k.lab g).fam) ∧
      ∀ x, d = some x → k.kind x = .data ∧ x < k.next ∧ k.lab x = k.lab g ∧
      ∀ q w, k.node q = some (.data w) → (k.lab q).up (k.lab x) → ∃ v, k.node x = some (.data v)
  | .loose x => k.kind x = .data → ∀ q w, k.node q = some (.data w) → (k.lab q).up (k.lab x) → k.lab q = k.lab x
  | .reg r => (∀ a, r.alloc = some a → k.node a = some (.alloc r.buf)) ∧ (0 < r.len → r.alloc = none → k.zst = true)

def Ss (T : List Tok) : List Nat := T.flatMap Tok.S
def Ws (T : List Tok) : List Nat := T.flatMap Tok.W
def Gs (T : List Tok) : List Span := T.flatMap Tok.G

@[simp] theorem Ss_cons (t : Tok) (T : List Tok) : Ss (t :: T) = t.S ++ Ss T := rfl
@[simp] theorem Ws_cons (t : Tok) (T : List Tok) : Ws (t :: T) = t.W ++ Ws T := rfl
@[simp] theorem Gs_cons (t : Tok) (T : List Tok) : Gs (t :: T) = t.G ++ Gs T := rfl

/-- The invariant. -/
structure Inv (h : Heap α) (T : List Tok) : Prop where
  good : Good h (Ss T) (Ws T) (Gs T)
  toks : ∀ t ∈ T, TokOK h.sk t
  bufs : ∀ b i, h.sk.nbuf ≤ b → h.slot b i = .absent

theorem Inv.perm {h : Heap α} {T T' : List Tok} (I : Inv h T) (p : T.Perm T') : Inv h T' where
  good := I.good.perm (p.flatMap_right _) (p.flatMap_right _) fun b i => owners_perm (p.flatMap_right _) b i
  toks t ht := I.toks t (p.mem_iff.2 ht)
  bufs := I.bufs

theorem Ext.tokOK {k k' : Skel} (x : Ext k k') {t : Tok} (B : Base k) (h : TokOK k t) (hl : ∀ y ∈ t.S, y < k.next) :
    TokOK k' t := by
  cases t with
  | strong d i =>
    have hd := hl d (by simp [Tok.S]); have hi := hl i (by simp [Tok.S])
    obtain ⟨h1, h2, h3⟩ := h
    exact ⟨(x.kind d hd).trans h1, (x.kind i hi).trans h2, by rw [x.lab d hd, x.lab i hi, h3]⟩
  | weak d g =>
    have hg := hl g (by simp [Tok.S])
    obtain ⟨h1, h0, h2⟩ := h
    refine ⟨(x.kind g hg).trans h1, ?_, ?_⟩
    · intro hn q w hq
      rw [x.lab g hg]
      rcases x.dataNew q w hq with ⟨v, h⟩ | ⟨_, q', v, h, e⟩ | ⟨_, h⟩
      · rw [x.lab q (B.lt h)]; exact h0 hn q v h
      · rw [← e.1]; exact h0 hn q' v h
      · have := B.famLt g hg (by rw [h1]; simp)
        omega
    intro y hy
    obtain ⟨a1, a2, a3, a4⟩ := h2 y hy
    refine ⟨(x.kind y a2).trans a1, Nat.lt_of_lt_of_le a2 x.next, by rw [x.lab y a2, x.lab g hg, a3], ?_⟩
    intro q w hq hu
    rw [x.lab y a2] at hu
    have live : ∃ v, k.node y = some (.data v) := by
      rcases x.dataNew q w hq with ⟨v, h⟩ | ⟨_, q', v, h, e⟩ | ⟨_, h⟩
      · rw [x.lab q (B.lt h)] at hu; exact a4 q v h hu
      · exact a4 q' v h (Lab.up_trans e hu)
      · have := B.famLt y a2 (by rw [a1]; simp)
        rw [hu.1] at h; omega
    obtain ⟨v, hv⟩ := live
    obtain ⟨v', h', _⟩ := x.data y v hv
    exact ⟨v', h'⟩
  | loose y =>
    have hy := hl y (by simp [Tok.S])
    intro hk q w hq hu
    rw [x.kind y hy] at hk
    rw [x.lab y hy] at hu ⊢
    rcases x.dataNew q w hq with ⟨v, h1⟩ | ⟨hn, q', v, h1, e⟩ | ⟨_, h1⟩
    · rw [x.lab q (B.lt h1)] at hu ⊢; exact h hk q v h1 hu
    · have e2 := h hk q' v h1 (Lab.up_trans e hu)
      rw [e2] at e
      exact Lab.up_antisymm hu e
    · have := B.famLt y hy (by rw [hk]; simp)
      rw [hu.1] at h1; omega
  | reg r =>
    obtain ⟨h1, h2⟩ := h
    exact ⟨fun a ha => x.alloc a _ (h1 a ha), by rw [x.zst]; exact h2⟩

section
variable {h : Heap α} {T : List Tok}

theorem Inv.lt_of_tok (I : Inv h T) {y : Nat} (hy : y ∈ Ss T) : y < h.sk.next := by
  obtain ⟨n, hn⟩ := I.good.ledger.node_of_pos (I.good.ledger.pos_of_tok hy)
  exact I.good.ledger.lt hn

theorem Inv.live_of_tok (I : Inv h T) {y : Nat} (hy : y ∈ Ss T) : ∃ n, h.sk.node y = some n :=
  I.good.ledger.node_of_pos (I.good.ledger.pos_of_tok hy)

theorem mem_Ss {t : Tok} {y : Nat} (ht : t ∈ T) (hy : y ∈ t.S) : y ∈ Ss T := List.mem_flatMap.2 ⟨t, ht, hy⟩

/-- What an `RcSlice` refers to. -/
theorem Inv.strong_live (I : Inv h T) {d i : Nat} (ht : Tok.strong d i ∈ T) :
    ∃ v w, h.sk.node d = some (.data v) ∧ h.sk.node i = some (.img w) ∧ h.sk.lab d = h.sk.lab i := by
  obtain ⟨h1, h2, h3⟩ := I.toks _ ht
  obtain ⟨n, hn⟩ := I.live_of_tok (mem_Ss ht (y := d) (by simp [Tok.S]))
  obtain ⟨m, hm⟩ := I.live_of_tok (mem_Ss ht (y := i) (by simp [Tok.S]))
  obtain ⟨v, hv⟩ := I.good.shape.toBase.data_of hn h1
  obtain ⟨w, hw⟩ := I.good.shape.toBase.img_of hm h2
  exact ⟨v, w, hv, hw, h3⟩

theorem Inv.weak_live (I : Inv h T) {d : Option Nat} {g : Nat} (ht : Tok.weak d g ∈ T) : ∃ v, h.sk.node g = some (.gmg v) := by
  obtain ⟨h1, h2⟩ := I.toks _ ht
  obtain ⟨n, hn⟩ := I.live_of_tok (mem_Ss ht (y := g) (by simp [Tok.S]))
  exact I.good.shape.toBase.gmg_of hn h1

/-- Tokens after growth. -/
theorem Inv.ext {h' : Heap α} {T' : List Tok} (I : Inv h T) (g : Good h' (Ss T') (Ws T') (Gs T')) (x : Ext h.sk h'.sk)
    (hb : ∀ b i, h'.sk.nbuf ≤ b → h'.slot b i = .absent)
    (hT : ∀ t ∈ T', t ∈ T ∨ TokOK h'.sk t) : Inv h' T' where
  good := g
  toks t ht := by
    rcases hT t ht with h1 | h1
    · exact x.tokOK I.good.shape.toBase (I.toks t h1) fun y hy => I.lt_of_tok (mem_Ss h1 hy)
    · exact h1
  bufs := hb

end

end Verif.Rc
