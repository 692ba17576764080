import Verif.Rc.Proofs.Ledger
/-!
# The structure of the heap

Ghost labels tie together the node tree of a slice and its two trees of guards.
-/

namespace Verif.Rc
open Verif.Spec (Side Slot Family Rng)
variable {α : Type}

/-- `l` is `m` or one that `m` was cut from. -/
def Lab.up (l m : Lab) : Prop := l.fam = m.fam ∧ l.path <:+ m.path

/-- Basic bookkeeping. -/
structure Base (k : Skel) : Prop where
  kinds : ∀ x n, k.node x = some n → k.kind x = n.kind
  famLt : ∀ x, x < k.next → k.kind x ≠ .alloc → (k.lab x).fam < k.nfam
  fresh : ∀ x, k.next ≤ x → k.node x = none

/-- The tree of slice data. -/
structure DShape (k : Skel) : Prop where
  dataFam : ∀ x v, k.node x = some (.data v) →
    v.buf = (k.fams (k.lab x).fam).buf ∧
    Rng.mk v.off v.len = (k.fams (k.lab x).fam).rng.at (k.lab x).path ∧
    v.alloc.isSome = ((k.fams (k.lab x).fam).holds && ((k.lab x).path.isEmpty || decide (0 < v.len)))
  dataAlloc : ∀ x v a, k.node x = some (.data v) → v.alloc = some a → k.node a = some (.alloc v.buf)
  dataMem : ∀ x v, k.node x = some (.data v) → 0 < v.len → v.alloc = none → k.zst = true
  dataKid : ∀ x v s c, k.node x = some (.data v) → v.kids s = some c →
    x < c ∧ k.lab c = (k.lab x).child s ∧ ∃ vc, k.node c = some (.data vc)
  dataUniq : ∀ x v y w, k.node x = some (.data v) → k.node y = some (.data w) → k.lab x = k.lab y → x = y
  dataDown : ∀ q v x w s, k.node q = some (.data v) → k.node x = some (.data w) →
    ((k.lab q).child s).up (k.lab x) → (v.kids s).isSome

/-- The tree of `into_mut` guards. -/
structure IShape (k : Skel) : Prop where
  imgRoot : ∀ x v, k.node x = some (.img v) → v.parent = none → (k.lab x).path = []
  imgPar : ∀ x v y, k.node x = some (.img v) → v.parent = some y →
    y < x ∧ (∃ s, k.lab x = (k.lab y).child s) ∧ ∃ vy, k.node y = some (.img vy)
  imgGmg : ∀ x v, k.node x = some (.img v) → k.lab v.gmg = k.lab x ∧ ∃ vg, k.node v.gmg = some (.gmg vg)
  imgKid : ∀ x v s c, k.node x = some (.img v) → v.kids s = some c →
    k.lab c = (k.lab x).child s ∧ k.kind c = .img ∧ c < k.next
  imgUniq : ∀ x v y w, k.node x = some (.img v) → k.node y = some (.img w) → k.lab x = k.lab y → x = y
  imgDown : ∀ q v c w s, k.node q = some (.img v) → k.node c = some (.img w) →
    k.lab c = (k.lab q).child s → v.kids s = some c

/-- The tree of `get_mut` guards. -/
structure GShape (k : Skel) : Prop where
  gmgRoot : ∀ x v, k.node x = some (.gmg v) → v.parent = none → (k.lab x).path = []
  gmgPar : ∀ x v y s, k.node x = some (.gmg v) → v.parent = some (y, s) →
    y < x ∧ k.lab x = (k.lab y).child s ∧ ∃ vy, k.node y = some (.gmg vy)
  gmgKid : ∀ x v s c, k.node x = some (.gmg v) → v.kids s = some c →
    k.lab c = (k.lab x).child s ∧ k.kind c = .gmg ∧ c < k.next
  gmgImg : ∀ x v c, k.node x = some (.gmg v) → v.img = some c → k.lab c = k.lab x ∧ k.kind c = .img ∧ c < k.next
  gmgUniq : ∀ x v y w, k.node x = some (.gmg v) → k.node y = some (.gmg w) → k.lab x = k.lab y → x = y
  gmgDown : ∀ q v c w s, k.node q = some (.gmg v) → k.node c = some (.gmg w) →
    k.lab c = (k.lab q).child s → v.kids s = some c
  gmgBack : ∀ g v i w, k.node g = some (.gmg v) → k.node i = some (.img w) → k.lab i = k.lab g → v.img = some i

/-- Allocations. -/
structure AShape (k : Skel) : Prop where
  allocUniq : ∀ a a' b, k.node a = some (.alloc b) → k.node a' = some (.alloc b) → a = a'
  allocLt : ∀ a b, k.node a = some (.alloc b) → b < k.nbuf
  allocMem : ∀ a b, k.node a = some (.alloc b) → k.zst = false → k.mem b = true
  memAlloc : ∀ b, k.mem b = true → ∃ a, k.node a = some (.alloc b)
  memLt : ∀ b, k.mem b = true → b < k.nbuf
  memZst : k.zst = true → ∀ b, k.mem b = false

/-- The structural invariant. -/
structure Shape (k : Skel) : Prop extends Base k, DShape k, IShape k, GShape k, AShape k

theorem upd_none_some {β : Type} {f : Nat → Option β} {x y : Nat} {n : β} (h : upd f x none y = some n) :
    y ≠ x ∧ f y = some n := by
  by_cases e : y = x
  · subst e; rw [upd_same] at h; cases h
  · rw [upd_ne _ _ e] at h; exact ⟨e, h⟩

namespace Shape
variable {k : Skel}

/-- A value nobody refers to disappears. -/
theorem kill (S : Shape k) {x : Nat} {n : Node} (hx : k.node x = some n) (ha : n.kind ≠ .alloc)
    (hr : ∀ y m, k.node y = some m → x ∉ m.srefs) : Shape { k with node := upd k.node x none } where
  kinds y m h := S.kinds y m (upd_none_some h).2
  famLt := S.famLt
  dataFam y v h := S.dataFam y v (upd_none_some h).2
  dataAlloc y v a h e := by
    replace h := (upd_none_some h).2
    have h2 := S.dataAlloc y v a h e
    show upd k.node x none a = _
    rw [upd_ne _ _ _]; exact h2
    intro e2; subst e2; rw [hx] at h2; cases h2; exact ha rfl
  dataMem y v h := S.dataMem y v (upd_none_some h).2
  dataKid y v s c h e := by
    replace h := (upd_none_some h).2
    obtain ⟨h1, h2, vc, h3⟩ := S.dataKid y v s c h e
    refine ⟨h1, h2, vc, ?_⟩
    show upd k.node x none c = _
    rw [upd_ne _ _ _]; exact h3
    intro e2; subst e2
    refine hr y _ h ?_
    cases s <;> simp [Node.srefs, e]
  dataUniq y v z w h1 h2 := S.dataUniq y v z w (upd_none_some h1).2 (upd_none_some h2).2
  dataDown q v y w s h1 h2 := S.dataDown q v y w s (upd_none_some h1).2 (upd_none_some h2).2
  imgRoot y v h := S.imgRoot y v (upd_none_some h).2
  imgPar y v z h e := by
    replace h := (upd_none_some h).2
    obtain ⟨h1, h2, vc, h3⟩ := S.imgPar y v z h e
    refine ⟨h1, h2, vc, ?_⟩
    show upd k.node x none z = _
    rw [upd_ne _ _ _]; exact h3
    intro e2; subst e2
    exact hr y _ h (by simp [Node.srefs, e])
  imgGmg y v h := by
    replace h := (upd_none_some h).2
    obtain ⟨h1, vc, h3⟩ := S.imgGmg y v h
    refine ⟨h1, vc, ?_⟩
    show upd k.node x none _ = _
    rw [upd_ne _ _ _]; exact h3
    intro e2; subst e2
    exact hr y _ h (by simp [Node.srefs])
  imgKid y v s c h := S.imgKid y v s c (upd_none_some h).2
  imgUniq y v z w h1 h2 := S.imgUniq y v z w (upd_none_some h1).2 (upd_none_some h2).2
  imgDown q v c w s h1 h2 := S.imgDown q v c w s (upd_none_some h1).2 (upd_none_some h2).2
  gmgRoot y v h := S.gmgRoot y v (upd_none_some h).2
  gmgPar y v z s h e := by
    replace h := (upd_none_some h).2
    obtain ⟨h1, h2, vc, h3⟩ := S.gmgPar y v z s h e
    refine ⟨h1, h2, vc, ?_⟩
    show upd k.node x none z = _
    rw [upd_ne _ _ _]; exact h3
    intro e2; subst e2
    exact hr y _ h (by simp [Node.srefs, e])
  gmgKid y v s c h := S.gmgKid y v s c (upd_none_some h).2
  gmgImg y v c h := S.gmgImg y v c (upd_none_some h).2
  gmgUniq y v z w h1 h2 := S.gmgUniq y v z w (upd_none_some h1).2 (upd_none_some h2).2
  gmgDown q v c w s h1 h2 := S.gmgDown q v c w s (upd_none_some h1).2 (upd_none_some h2).2
  gmgBack g v i w h1 h2 := S.gmgBack g v i w (upd_none_some h1).2 (upd_none_some h2).2
  allocUniq a a' b h1 h2 := S.allocUniq a a' b (upd_none_some h1).2 (upd_none_some h2).2
  allocLt a b h := S.allocLt a b (upd_none_some h).2
  allocMem a b h := S.allocMem a b (upd_none_some h).2
  memAlloc b h := by
    obtain ⟨a, h2⟩ := S.memAlloc b h
    refine ⟨a, ?_⟩
    show upd k.node x none a = _
    rw [upd_ne _ _ _]; exact h2
    intro e2; subst e2; rw [hx] at h2; cases h2; exact ha rfl
  memLt := S.memLt
  memZst := S.memZst
  fresh y h := by
    show upd k.node x none y = none
    simp only [upd]; split; rfl; exact S.fresh y h

end Shape
end Verif.Rc

namespace Verif.Rc
open Verif.Spec (Side Slot Family Rng)

theorem Base.lt {k : Skel} (S : Base k) {x : Nat} {n : Node} (hx : k.node x = some n) : x < k.next := by
  apply Nat.lt_of_not_le; intro hle; rw [S.fresh x hle] at hx; cases hx

theorem Base.fam_data {k : Skel} (S : Base k) {x : Nat} {n : Node} (hx : k.node x = some n) (hn : n.kind ≠ .alloc) :
    (k.lab x).fam < k.nfam :=
  S.famLt x (S.lt hx) (by rw [S.kinds x n hx]; exact hn)

/-- `k'` knows everything `k` knows. -/
structure Grow (k k' : Skel) : Prop where
  zst : k'.zst = k.zst
  next : k.next ≤ k'.next
  nbuf : k.nbuf ≤ k'.nbuf
  nfam : k.nfam ≤ k'.nfam
  lab : ∀ x, x < k.next → k'.lab x = k.lab x
  kind : ∀ x, x < k.next → k'.kind x = k.kind x
  fams : ∀ f, f < k.nfam → k'.fams f = k.fams f
  blen : ∀ b, b < k.nbuf → k'.blen b = k.blen b
  blenHi : ∀ b, k'.nbuf ≤ b → k'.blen b = k.blen b

theorem Grow.refl (k : Skel) : Grow k k :=
  ⟨rfl, Nat.le_refl _, Nat.le_refl _, Nat.le_refl _, fun _ _ => rfl, fun _ _ => rfl, fun _ _ => rfl, fun _ _ => rfl, fun _ _ => rfl⟩

theorem Grow.trans {a b c : Skel} (h1 : Grow a b) (h2 : Grow b c) : Grow a c where
  zst := h2.zst.trans h1.zst
  next := Nat.le_trans h1.next h2.next
  nbuf := Nat.le_trans h1.nbuf h2.nbuf
  nfam := Nat.le_trans h1.nfam h2.nfam
  lab x h := (h2.lab x (Nat.lt_of_lt_of_le h h1.next)).trans (h1.lab x h)
  kind x h := (h2.kind x (Nat.lt_of_lt_of_le h h1.next)).trans (h1.kind x h)
  fams x h := (h2.fams x (Nat.lt_of_lt_of_le h h1.nfam)).trans (h1.fams x h)
  blen x h := (h2.blen x (Nat.lt_of_lt_of_le h h1.nbuf)).trans (h1.blen x h)
  blenHi x h := (h2.blenHi x h).trans (h1.blenHi x (Nat.le_trans h2.nbuf h))

variable {k k' : Skel}

theorem DShape.frame (B : Base k) (D : DShape k) (g : Grow k k')
    (hd : ∀ x v, k'.node x = some (.data v) ↔ k.node x = some (.data v))
    (ha : ∀ a b, k.node a = some (.alloc b) → k'.node a = some (.alloc b)) : DShape k' where
  dataFam x v h := by
    have h := (hd x v).1 h
    rw [g.lab x (B.lt h), g.fams _ (B.fam_data h (by simp [Node.kind]))]; exact D.dataFam x v h
  dataAlloc x v a h e := ha _ _ (D.dataAlloc x v a ((hd x v).1 h) e)
  dataMem x v h := by rw [g.zst]; exact D.dataMem x v ((hd x v).1 h)
  dataKid x v s c h e := by
    have h := (hd x v).1 h
    obtain ⟨h1, h2, vc, h3⟩ := D.dataKid x v s c h e
    rw [g.lab x (B.lt h), g.lab c (B.lt h3)]
    exact ⟨h1, h2, vc, (hd _ _).2 h3⟩
  dataUniq x v y w h1 h2 := by
    have h1 := (hd x v).1 h1; have h2 := (hd y w).1 h2
    rw [g.lab x (B.lt h1), g.lab y (B.lt h2)]; exact D.dataUniq x v y w h1 h2
  dataDown x v y w s h1 h2 := by
    have h1 := (hd x v).1 h1; have h2 := (hd y w).1 h2
    rw [g.lab x (B.lt h1), g.lab y (B.lt h2)]; exact D.dataDown x v y w s h1 h2

theorem IShape.frame (B : Base k) (I : IShape k) (g : Grow k k')
    (hi : ∀ x v, k'.node x = some (.img v) ↔ k.node x = some (.img v))
    (hg : ∀ x v, k.node x = some (.gmg v) → ∃ v', k'.node x = some (.gmg v')) : IShape k' where
  imgRoot x v h := by
    have h := (hi x v).1 h
    rw [g.lab x (B.lt h)]; exact I.imgRoot x v h
  imgPar x v y h e := by
    have h := (hi x v).1 h
    obtain ⟨h1, h2, vc, h3⟩ := I.imgPar x v y h e
    rw [g.lab x (B.lt h), g.lab y (B.lt h3)]
    exact ⟨h1, h2, vc, (hi _ _).2 h3⟩
  imgGmg x v h := by
    have h := (hi x v).1 h
    obtain ⟨h1, vc, h3⟩ := I.imgGmg x v h
    rw [g.lab x (B.lt h), g.lab _ (B.lt h3)]
    exact ⟨h1, hg _ _ h3⟩
  imgKid x v s c h e := by
    have h := (hi x v).1 h
    obtain ⟨h1, h2, h3⟩ := I.imgKid x v s c h e
    rw [g.lab x (B.lt h), g.lab c h3, g.kind c h3]
    exact ⟨h1, h2, Nat.lt_of_lt_of_le h3 g.next⟩
  imgUniq x v y w h1 h2 := by
    have h1 := (hi x v).1 h1; have h2 := (hi y w).1 h2
    rw [g.lab x (B.lt h1), g.lab y (B.lt h2)]; exact I.imgUniq x v y w h1 h2
  imgDown x v y w s h1 h2 := by
    have h1 := (hi x v).1 h1; have h2 := (hi y w).1 h2
    rw [g.lab x (B.lt h1), g.lab y (B.lt h2)]; exact I.imgDown x v y w s h1 h2

theorem GShape.frame (B : Base k) (G : GShape k) (g : Grow k k')
    (hg : ∀ x v, k'.node x = some (.gmg v) ↔ k.node x = some (.gmg v))
    (hi : ∀ x v, k'.node x = some (.img v) → ∃ v', k.node x = some (.img v')) : GShape k' where
  gmgRoot x v h := by
    have h := (hg x v).1 h
    rw [g.lab x (B.lt h)]; exact G.gmgRoot x v h
  gmgPar x v y s h e := by
    have h := (hg x v).1 h
    obtain ⟨h1, h2, vc, h3⟩ := G.gmgPar x v y s h e
    rw [g.lab x (B.lt h), g.lab y (B.lt h3)]
    exact ⟨h1, h2, vc, (hg _ _).2 h3⟩
  gmgKid x v s c h e := by
    have h := (hg x v).1 h
    obtain ⟨h1, h2, h3⟩ := G.gmgKid x v s c h e
    rw [g.lab x (B.lt h), g.lab c h3, g.kind c h3]
    exact ⟨h1, h2, Nat.lt_of_lt_of_le h3 g.next⟩
  gmgImg x v c h e := by
    have h := (hg x v).1 h
    obtain ⟨h1, h2, h3⟩ := G.gmgImg x v c h e
    rw [g.lab x (B.lt h), g.lab c h3, g.kind c h3]
    exact ⟨h1, h2, Nat.lt_of_lt_of_le h3 g.next⟩
  gmgUniq x v y w h1 h2 := by
    have h1 := (hg x v).1 h1; have h2 := (hg y w).1 h2
    rw [g.lab x (B.lt h1), g.lab y (B.lt h2)]; exact G.gmgUniq x v y w h1 h2
  gmgDown x v y w s h1 h2 := by
    have h1 := (hg x v).1 h1; have h2 := (hg y w).1 h2
    rw [g.lab x (B.lt h1), g.lab y (B.lt h2)]; exact G.gmgDown x v y w s h1 h2
  gmgBack x v i w h1 h2 := by
    have h1 := (hg x v).1 h1; obtain ⟨w', h2⟩ := hi i w h2
    rw [g.lab x (B.lt h1), g.lab i (B.lt h2)]; exact G.gmgBack x v i w' h1 h2

theorem AShape.frame (A : AShape k) (g : Grow k k')
    (ha : ∀ x v, k'.node x = some (.alloc v) ↔ k.node x = some (.alloc v)) (hm : k'.mem = k.mem) : AShape k' where
  allocUniq a a' b h1 h2 := A.allocUniq a a' b ((ha _ _).1 h1) ((ha _ _).1 h2)
  allocLt a b h := Nat.lt_of_lt_of_le (A.allocLt a b ((ha _ _).1 h)) g.nbuf
  allocMem a b h := by rw [g.zst, hm]; exact A.allocMem a b ((ha _ _).1 h)
  memAlloc b h := by
    rw [hm] at h; obtain ⟨a, h⟩ := A.memAlloc b h; exact ⟨a, (ha _ _).2 h⟩
  memLt b h := by rw [hm] at h; exact Nat.lt_of_lt_of_le (A.memLt b h) g.nbuf
  memZst h := by rw [hm]; rw [g.zst] at h; exact A.memZst h

/-- The skeleton after a new object was made. -/
def Skel.add (k : Skel) (n : Node) (l : Lab) : Skel :=
  { k with
    next := k.next + 1
    node := upd k.node k.next (some n)
    lab := upd k.lab k.next l
    kind := upd k.kind k.next n.kind }

/-- The skeleton after a value was overwritten. -/
def Skel.set (k : Skel) (x : Nat) (n : Node) : Skel := { k with node := upd k.node x (some n) }

theorem Grow.add (k : Skel) (n : Node) (l : Lab) : Grow k (k.add n l) where
  zst := rfl
  next := Nat.le_succ _
  nbuf := Nat.le_refl _
  nfam := Nat.le_refl _
  lab x h := upd_ne _ _ (by omega)
  kind x h := upd_ne _ _ (by omega)
  fams _ _ := rfl
  blen _ _ := rfl
  blenHi _ _ := rfl

theorem Grow.set (k : Skel) (x : Nat) (n : Node) : Grow k (k.set x n) :=
  ⟨rfl, Nat.le_refl _, Nat.le_refl _, Nat.le_refl _, fun _ _ => rfl, fun _ _ => rfl, fun _ _ => rfl, fun _ _ => rfl, fun _ _ => rfl⟩

theorem Base.add (B : Base k) (n : Node) (l : Lab) (hl : n.kind ≠ .alloc → l.fam < k.nfam) : Base (k.add n l) where
  kinds x m h := by
    simp only [Skel.add, upd] at h ⊢
    split at h
    · cases h; simp [*]
    · rw [if_neg ‹_›]; exact B.kinds x m h
  famLt x hx hk := by
    simp only [Skel.add, upd] at hx hk ⊢
    split at hk
    · rw [if_pos ‹_›]; exact hl hk
    · rw [if_neg ‹_›]; exact B.famLt x (by omega) hk
  fresh x hx := by
    simp only [Skel.add, upd] at hx ⊢
    rw [if_neg (by omega)]; exact B.fresh x (by omega)

theorem Base.set (B : Base k) {x : Nat} {n n' : Node} (hx : k.node x = some n) (hk : n'.kind = n.kind) :
    Base (k.set x n') where
  kinds y m h := by
    simp only [Skel.set, upd] at h ⊢
    split at h
    · next e => cases h; subst e; rw [hk]; exact B.kinds _ n hx
    · exact B.kinds y m h
  famLt := B.famLt
  fresh y hy := by
    have := B.lt hx
    simp only [Skel.set, upd] at hy ⊢
    rw [if_neg (by omega)]; exact B.fresh y hy

theorem add_iff (B : Base k) {n : Node} {l : Lab} {x : Nat} {m : Node} :
    (k.add n l).node x = some m ↔ (x = k.next ∧ m = n) ∨ (k.node x = some m) := by
  simp only [Skel.add, upd]
  split
  · next e => subst e; rw [B.fresh _ (Nat.le_refl _)]; simp [eq_comm]
  · next e => simp [e]

theorem set_iff {n' : Node} {x y : Nat} {m : Node} :
    (k.set x n').node y = some m ↔ (y = x ∧ m = n') ∨ (y ≠ x ∧ k.node y = some m) := by
  simp only [Skel.set, upd]
  split
  · next e => subst e; simp [eq_comm]
  · next e => simp [e]

end Verif.Rc
