import Verif.Rc.Machine
/-!
# Counting references and owners

Every reference in the heap and outside of it is accounted for in the counts, and every
item that is there has exactly one owner.
-/

namespace Verif.Rc
open Verif.Spec (Side Slot)
variable {α : Type}

/-! ## Sums -/

theorem sumTo_congr {n : Nat} {f g : Nat → Nat} (h : ∀ x, x < n → f x = g x) : sumTo n f = sumTo n g := by
  induction n with
  | zero => rfl
  | succ n ih => simp only [sumTo]; rw [ih fun x hx => h x (by omega), h n (by omega)]

theorem sumTo_change {n x : Nat} {f g : Nat → Nat} (hx : x < n) (h : ∀ y, y ≠ x → g y = f y) :
    sumTo n g + f x = sumTo n f + g x := by
  induction n with
  | zero => omega
  | succ n ih =>
    simp only [sumTo]
    by_cases hn : x = n
    · subst hn; rw [sumTo_congr (fun y hy => h y (by omega))]; omega
    · rw [h n (by omega)]
      have := ih (by omega); omega

theorem le_sumTo {n x : Nat} (f : Nat → Nat) (hx : x < n) : f x ≤ sumTo n f := by
  induction n with
  | zero => omega
  | succ n ih =>
    simp only [sumTo]
    by_cases hn : x = n
    · subst hn; omega
    · have := ih (by omega); omega

theorem le_sumTo2 {n x y : Nat} (f : Nat → Nat) (hx : x < n) (hy : y < n) (h : x ≠ y) : f x + f y ≤ sumTo n f := by
  have h1 := sumTo_change (n := n) (x := x) (f := f) (g := fun z => if z = x then 0 else f z) hx
    (fun z hz => by simp [hz])
  have h2 := le_sumTo (fun z => if z = x then 0 else f z) hy
  simp only [if_pos, if_neg (Ne.symm h)] at h1 h2
  omega

theorem sumTo_pos {n : Nat} {f : Nat → Nat} (h : 0 < sumTo n f) : ∃ x, x < n ∧ 0 < f x := by
  induction n with
  | zero => simp [sumTo] at h
  | succ n ih =>
    simp only [sumTo] at h
    by_cases hn : 0 < f n
    · exact ⟨n, by omega, hn⟩
    · obtain ⟨x, hx, h⟩ := ih (by omega); exact ⟨x, by omega, h⟩

theorem sumTo_zero {n : Nat} {f : Nat → Nat} (h : ∀ x, x < n → f x = 0) : sumTo n f = 0 := by
  induction n with
  | zero => rfl
  | succ n ih => simp only [sumTo]; rw [ih fun x hx => h x (by omega), h n (by omega)]

theorem sumTo_single {n x : Nat} {f : Nat → Nat} (hx : x < n) (h : ∀ y, y < n → y ≠ x → f y = 0) : sumTo n f = f x := by
  induction n with
  | zero => omega
  | succ n ih =>
    simp only [sumTo]
    by_cases hn : x = n
    · subst hn; rw [sumTo_zero fun y hy => h y (by omega) (by omega)]; omega
    · rw [ih (by omega) fun y hy => h y (by omega), h n (by omega) (by omega)]; omega

/-! ## What a node holds -/

/-- Strong references held by a value. -/
def Node.srefs : Node → List Nat
  | .data v => (v.kids .L).toList ++ (v.kids .R).toList ++ v.alloc.toList
  | .img v => v.parent.toList ++ [v.gmg]
  | .gmg v => v.parent.toList.map Prod.fst
  | .alloc _ => []

/-- Weak references held by a value. -/
def Node.wrefs : Node → List Nat
  | .data _ => []
  | .img v => (v.kids .L).toList ++ (v.kids .R).toList
  | .gmg v => (v.kids .L).toList ++ (v.kids .R).toList ++ v.img.toList
  | .alloc _ => []

/-- Consecutive items. -/
structure Span where
  buf : Nat
  off : Nat
  len : Nat

def DataV.span (v : DataV) : Span := ⟨v.buf, v.off, v.len⟩
def DataV.sub (v : DataV) (s : Side) : Span := ⟨v.buf, v.subOff s, v.subLen s⟩
def Reg.span (r : Reg) : Span := ⟨r.buf, r.off, r.len⟩

/-- The half is owned by the node itself unless there is a child for it. -/
def DataV.ownSub (v : DataV) (s : Side) : List Span := if (v.kids s).isNone then [v.sub s] else []

/-- Items owned by a value. -/
def Node.spans : Node → List Span
  | .data v => v.ownSub .L ++ v.ownSub .R
  | _ => []

/-- 1 if the item is in the span. -/
def Span.num (b i : Nat) (g : Span) : Nat := if g.buf = b ∧ g.off ≤ i ∧ i < g.off + g.len then 1 else 0

/-- How many of the spans the item is in. -/
def owners (G : List Span) (b i : Nat) : Nat := (G.map (Span.num b i)).sum

@[simp] theorem owners_nil (b i : Nat) : owners [] b i = 0 := rfl
@[simp] theorem owners_cons (g : Span) (G : List Span) (b i : Nat) : owners (g :: G) b i = g.num b i + owners G b i := by
  simp [owners]
@[simp] theorem owners_append (G K : List Span) (b i : Nat) : owners (G ++ K) b i = owners G b i + owners K b i := by
  simp [owners]

theorem owners_perm {G K : List Span} (h : G.Perm K) (b i : Nat) : owners G b i = owners K b i :=
  (h.map _).sum_nat

/-- Cutting a span in two. -/
theorem num_split (b off m n x i : Nat) : Span.num x i ⟨b, off, m⟩ + Span.num x i ⟨b, off + m, n⟩ = Span.num x i ⟨b, off, m + n⟩ := by
  unfold Span.num; simp only
  split <;> split <;> split <;> omega

theorem num_empty (b off x i : Nat) : Span.num x i ⟨b, off, 0⟩ = 0 := by
  unfold Span.num; simp only; rw [if_neg]; omega

theorem DataV.num_halves (v : DataV) (b i : Nat) : (v.sub .L).num b i + (v.sub .R).num b i = v.span.num b i := by
  have := num_split v.buf v.off (v.len >>> 1) (v.len - v.len >>> 1) b i
  have h : v.len >>> 1 ≤ v.len := by rw [Nat.shiftRight_eq_div_pow]; omega
  simp only [DataV.sub, DataV.span, DataV.subOff, DataV.subLen]
  rw [this, Nat.add_sub_cancel' h]

/-- The range dropped by `RcSliceData::drop` is what the node owns. -/
theorem DataV.dropRange_owns (v : DataV) (b i : Nat) :
    owners (v.ownSub .L ++ v.ownSub .R) b i = Span.num b i ⟨v.buf, v.dropRange.1, v.dropRange.2⟩ := by
  have := v.num_halves b i
  unfold DataV.ownSub DataV.dropRange
  cases hl : v.kids .L <;> cases hr : v.kids .R <;>
    simp only [Option.isNone, if_true, Bool.false_eq_true, if_false, List.nil_append, List.append_nil, owners_append,
      owners_cons, owners_nil, Nat.add_zero]
  · exact this
  · rfl
  · rfl
  · rw [num_empty]

/-- 1 if the item is there. -/
def num : Slot α → Nat
  | .live _ => 1
  | _ => 0

/-- Sum over all values in the heap. -/
def nsum (k : Skel) (f : Node → Nat) : Nat := sumTo k.next fun x => ((k.node x).map f).getD 0

/-- All references and owners are accounted for; `S`, `W`, `G` are the strong references,
weak references and items held outside of the heap. -/
structure Ledger (h : Heap α) (S W : List Nat) (G : List Span) : Prop where
  s : ∀ x, h.strong x = nsum h.sk (fun n => n.srefs.count x) + S.count x
  w : ∀ x, h.weak x = nsum h.sk (fun n => n.wrefs.count x) + W.count x
  o : ∀ b i, nsum h.sk (fun n => owners n.spans b i) + owners G b i = num (h.slot b i)
  live : ∀ x, (h.sk.node x).isSome ↔ 0 < h.strong x
  fresh : ∀ x, h.sk.next ≤ x → h.sk.node x = none
  freshW : ∀ x, h.sk.next ≤ x → h.weak x = 0

theorem upd_same {β : Type} (f : Nat → β) (x : Nat) (v : β) : upd f x v x = v := by simp [upd]
theorem upd_ne {β : Type} (f : Nat → β) {x y : Nat} (v : β) (h : y ≠ x) : upd f x v y = f y := by simp [upd, h]

theorem setSlot_slot (h : Heap α) (b i : Nat) (s : Slot α) (b' i' : Nat) :
    (h.setSlot b i s).slot b' i' = if b' = b ∧ i' = i then s else h.slot b' i' := by
  unfold Heap.setSlot upd
  by_cases e : b' = b
  · subst e; simp
  · simp [e]

theorem nsum_set {k : Skel} {x : Nat} {n n' : Node} (hx : k.node x = some n) (hlt : x < k.next) (f : Node → Nat) :
    nsum { k with node := upd k.node x (some n') } f + f n = nsum k f + f n' := by
  have := sumTo_change (n := k.next) (x := x) (f := fun y => ((k.node y).map f).getD 0)
    (g := fun y => ((upd k.node x (some n') y).map f).getD 0) hlt (fun y hy => by simp [upd_ne _ _ hy])
  simpa [nsum, hx, upd_same] using this

theorem nsum_kill {k : Skel} {x : Nat} {n : Node} (hx : k.node x = some n) (hlt : x < k.next) (f : Node → Nat) :
    nsum { k with node := upd k.node x none } f + f n = nsum k f := by
  have := sumTo_change (n := k.next) (x := x) (f := fun y => ((k.node y).map f).getD 0)
    (g := fun y => ((upd k.node x none y).map f).getD 0) hlt (fun y hy => by simp [upd_ne _ _ hy])
  simpa [nsum, hx, upd_same] using this

theorem nsum_le {k : Skel} {x : Nat} {n : Node} (hx : k.node x = some n) (hlt : x < k.next) (f : Node → Nat) :
    f n ≤ nsum k f := by
  have := le_sumTo (fun y => ((k.node y).map f).getD 0) hlt
  simpa [nsum, hx] using this

theorem nsum_le2 {k : Skel} {x y : Nat} {n m : Node} (hx : k.node x = some n) (hxl : x < k.next)
    (hy : k.node y = some m) (hyl : y < k.next) (h : x ≠ y) (f : Node → Nat) : f n + f m ≤ nsum k f := by
  have := le_sumTo2 (fun y => ((k.node y).map f).getD 0) hxl hyl h
  simpa [nsum, hx, hy] using this

theorem nsum_pos {k : Skel} {f : Node → Nat} (h : 0 < nsum k f) : ∃ x n, x < k.next ∧ k.node x = some n ∧ 0 < f n := by
  obtain ⟨x, hx, h⟩ := sumTo_pos h
  cases hn : k.node x with
  | none => simp [hn] at h
  | some n => exact ⟨x, n, hx, hn, by simpa [hn] using h⟩

namespace Ledger
variable {h : Heap α} {S W : List Nat} {G : List Span}

theorem lt (L : Ledger h S W G) {x : Nat} {n : Node} (hx : h.sk.node x = some n) : x < h.sk.next := by
  apply Nat.lt_of_not_le; intro hle; rw [L.fresh x hle] at hx; cases hx

theorem strong_pos (L : Ledger h S W G) {x : Nat} {n : Node} (hx : h.sk.node x = some n) : 0 < h.strong x :=
  (L.live x).1 (by rw [hx]; rfl)

theorem node_of_pos (L : Ledger h S W G) {x : Nat} (hx : 0 < h.strong x) : ∃ n, h.sk.node x = some n :=
  Option.isSome_iff_exists.1 ((L.live x).2 hx)

/-- A reference held by a live value has a live target. -/
theorem pos_of_ref (L : Ledger h S W G) {x y : Nat} {n : Node} (hx : h.sk.node x = some n) (hy : y ∈ n.srefs) :
    0 < h.strong y := by
  have h1 := nsum_le hx (L.lt hx) (fun n => n.srefs.count y)
  have h2 := List.count_pos_iff.2 hy
  have h3 := L.s y
  omega

theorem pos_of_tok (L : Ledger h S W G) {y : Nat} (hy : y ∈ S) : 0 < h.strong y := by
  have h2 := List.count_pos_iff.2 hy
  have h3 := L.s y
  omega

theorem wpos_of_tok (L : Ledger h S W G) {y : Nat} (hy : y ∈ W) : 0 < h.weak y := by
  have h2 := List.count_pos_iff.2 hy
  have h3 := L.w y
  omega

theorem wpos_of_ref (L : Ledger h S W G) {x y : Nat} {n : Node} (hx : h.sk.node x = some n) (hy : y ∈ n.wrefs) :
    0 < h.weak y := by
  have h1 := nsum_le hx (L.lt hx) (fun n => n.wrefs.count y)
  have h2 := List.count_pos_iff.2 hy
  have h3 := L.w y
  omega

theorem congr (L : Ledger h S W G) {S' W' : List Nat} {G' : List Span} (hs : S.Perm S') (hw : W.Perm W')
    (hg : ∀ b i, owners G b i = owners G' b i) : Ledger h S' W' G' where
  s x := by rw [L.s, hs.count_eq]
  w x := by rw [L.w, hw.count_eq]
  o b i := by rw [← hg, L.o]
  live := L.live
  fresh := L.fresh
  freshW := L.freshW

/-- Only strong, weak counts and contents matter. -/
theorem incS (L : Ledger h S W G) {x : Nat} (hx : 0 < h.strong x) :
    Ledger { h with strong := upd h.strong x (h.strong x + 1) } (x :: S) W G where
  s y := by
    have := L.s y
    simp only [upd, List.count_cons]
    by_cases e : y = x
    · subst e; simp; omega
    · have e' : x ≠ y := fun h => e h.symm
      simp [e, e']; omega
  w := L.w
  o := L.o
  live y := by
    simp only [upd]
    by_cases e : y = x
    · subst e; simp only [if_true]; have := L.live y; constructor
      · intro; omega
      · intro; exact this.2 hx
    · simp only [e, if_false]; exact L.live y
  fresh := L.fresh
  freshW := L.freshW

theorem decS (L : Ledger h (x :: S) W G) (hx : h.strong x ≠ 1) :
    Ledger { h with strong := upd h.strong x (h.strong x - 1) } S W G where
  s y := by
    have := L.s y
    simp only [upd, List.count_cons] at *
    by_cases e : y = x
    · subst e; simp at *; omega
    · have e' : x ≠ y := fun h => e h.symm
      simp [e, e'] at *; omega
  w := L.w
  o := L.o
  live y := by
    have hp := L.pos_of_tok (List.mem_cons_self (a := x) (l := S))
    simp only [upd]
    by_cases e : y = x
    · subst e; simp only [if_true]; have := L.live y; constructor
      · intro; omega
      · intro; exact this.2 hp
    · simp only [e, if_false]; exact L.live y
  fresh := L.fresh
  freshW := L.freshW

theorem incW (L : Ledger h S W G) {x : Nat} (hx : x < h.sk.next) :
    Ledger { h with weak := upd h.weak x (h.weak x + 1) } S (x :: W) G where
  s := L.s
  w y := by
    have := L.w y
    simp only [upd, List.count_cons]
    by_cases e : y = x
    · subst e; simp; omega
    · have e' : x ≠ y := fun h => e h.symm
      simp [e, e']; omega
  o := L.o
  live := L.live
  fresh := L.fresh
  freshW y hy := by
    have hy' : h.sk.next ≤ y := hy
    show upd h.weak x _ y = 0
    rw [upd_ne _ _ (by omega)]; exact L.freshW y hy

theorem decW (L : Ledger h S (x :: W) G) :
    Ledger { h with weak := upd h.weak x (h.weak x - 1) } S W G where
  s := L.s
  w y := by
    have := L.w y
    simp only [upd, List.count_cons] at *
    by_cases e : y = x
    · subst e; simp at *; omega
    · have e' : x ≠ y := fun h => e h.symm
      simp [e, e'] at *; omega
  o := L.o
  live := L.live
  fresh := L.fresh
  freshW y hy := by
    simp only [upd]
    split
    · next e => subst e; rw [L.freshW y hy]
    · exact L.freshW y hy

/-- A new object takes over references and items. -/
theorem rcNew {n : Node} (L : Ledger h (n.srefs ++ S) (n.wrefs ++ W) (n.spans ++ G)) (l : Lab) :
    Ledger (h.rcNew n l).1 (h.sk.next :: S) W G := by
  have hnone := L.fresh _ (Nat.le_refl _)
  have hz : h.strong h.sk.next = 0 := by
    have := L.live h.sk.next
    rw [hnone] at this; simp at this; omega
  have hsum : ∀ f, nsum (h.rcNew n l).1.sk f = nsum h.sk f + f n := by
    intro f
    simp only [nsum, Heap.rcNew, sumTo, upd_same]
    rw [sumTo_congr (g := fun x => ((h.sk.node x).map f).getD 0)]
    · simp
    · intro x hx; rw [upd_ne _ _ (by omega)]
  constructor
  · intro y
    have h1 := L.s y
    rw [hsum]
    simp only [Heap.rcNew, upd, List.count_cons, List.count_append] at *
    by_cases e : y = h.sk.next
    · subst e; simp; omega
    · have e' : h.sk.next ≠ y := fun h => e h.symm
      simp [e, e']; omega
  · intro y
    have h1 := L.w y
    rw [hsum]
    simp only [Heap.rcNew, List.count_append] at *
    omega
  · intro b i
    have h1 := L.o b i
    rw [hsum]
    simp only [Heap.rcNew, owners_append] at *
    omega
  · intro y
    have h1 := L.live y
    simp only [Heap.rcNew, upd]
    by_cases e : y = h.sk.next
    · subst e; simp
    · simpa only [e, if_false] using h1
  · intro y hy
    simp only [Heap.rcNew] at hy ⊢
    rw [upd_ne _ _ (by omega)]; exact L.fresh y (by omega)
  · intro y hy
    simp only [Heap.rcNew] at hy ⊢
    exact L.freshW y (by omega)

/-- Overwriting a value exchanges references and items. -/
theorem setNode {n' : Node} (L : Ledger h (n'.srefs ++ S) (n'.wrefs ++ W) (n'.spans ++ G)) {x : Nat} {n : Node}
    (hx : h.sk.node x = some n) :
    Ledger (h.setNode x n') (n.srefs ++ S) (n.wrefs ++ W) (n.spans ++ G) := by
  have hlt := L.lt hx
  have hsum := fun f => nsum_set (n' := n') hx hlt f
  constructor
  · intro y
    have h1 := L.s y; have h2 := hsum (fun n => n.srefs.count y)
    simp only [Heap.setNode, List.count_append] at *; omega
  · intro y
    have h1 := L.w y; have h2 := hsum (fun n => n.wrefs.count y)
    simp only [Heap.setNode, List.count_append] at *; omega
  · intro b i
    have h1 := L.o b i; have h2 := hsum (fun n => owners n.spans b i)
    simp only [Heap.setNode, owners_append] at *; omega
  · intro y
    have h1 := L.live y
    simp only [Heap.setNode, upd]
    by_cases e : y = x
    · subst e; rw [hx] at h1; simpa using h1
    · simpa only [e, if_false] using h1
  · intro y hy
    simp only [Heap.setNode] at hy ⊢
    rw [upd_ne _ _ (by omega)]; exact L.fresh y hy
  · exact L.freshW

/-- A value dies with its last reference and gives back what it held. -/
theorem kill {x : Nat} (L : Ledger h (x :: S) W G) {n : Node} (hx : h.sk.node x = some n) (h1 : h.strong x = 1) :
    Ledger (h.kill x) (n.srefs ++ S) (n.wrefs ++ W) (n.spans ++ G) := by
  have hlt := L.lt hx
  have hsum := fun f => nsum_kill hx hlt f
  constructor
  · intro y
    have h1 := L.s y; have h2 := hsum (fun n => n.srefs.count y)
    simp only [Heap.kill, upd, List.count_cons, List.count_append] at *
    by_cases e : y = x
    · subst e; simp at *; omega
    · have e' : x ≠ y := fun h => e h.symm
      simp [e, e'] at *; omega
  · intro y
    have h1 := L.w y; have h2 := hsum (fun n => n.wrefs.count y)
    simp only [Heap.kill, List.count_append] at *; omega
  · intro b i
    have h1 := L.o b i; have h2 := hsum (fun n => owners n.spans b i)
    simp only [Heap.kill, owners_append] at *; omega
  · intro y
    have h1 := L.live y
    simp only [Heap.kill, upd]
    by_cases e : y = x
    · subst e; simp
    · simpa only [e, if_false] using h1
  · intro y hy
    simp only [Heap.kill] at hy ⊢
    rw [upd_ne _ _ (by omega)]; exact L.fresh y hy
  · exact L.freshW

/-- Nobody in the heap refers to an object whose only reference is outside. -/
theorem no_ref {x : Nat} (L : Ledger h (x :: S) W G) (h1 : h.strong x = 1) {y : Nat} {n : Node}
    (hy : h.sk.node y = some n) : x ∉ n.srefs := by
  intro hm
  have h2 := nsum_le hy (L.lt hy) (fun n => n.srefs.count x)
  have h3 := List.count_pos_iff.2 hm
  have h4 := L.s x
  simp only [List.count_cons_self] at h2 h4; omega

/-- ... and nobody else outside. -/
theorem no_tok {x : Nat} (L : Ledger h (x :: S) W G) (h1 : h.strong x = 1) : x ∉ S := by
  intro hm
  have h3 := List.count_pos_iff.2 hm
  have h4 := L.s x
  simp only [List.count_cons_self] at h4; omega

/-- An owned item is there. -/
theorem item_live (L : Ledger h S W G) {b i : Nat} (ho : 0 < owners G b i) : ∃ a, h.slot b i = .live a := by
  have := L.o b i
  cases hs : h.slot b i with
  | live a => exact ⟨a, rfl⟩
  | _ => rw [hs] at this; simp only [num] at this; omega

theorem item_live' (L : Ledger h S W G) {b i x : Nat} {n : Node} (hx : h.sk.node x = some n)
    (ho : 0 < owners n.spans b i) : ∃ a, h.slot b i = .live a := by
  have := L.o b i
  have h2 := nsum_le hx (L.lt hx) (fun n => owners n.spans b i)
  cases hs : h.slot b i with
  | live a => exact ⟨a, rfl⟩
  | _ => rw [hs] at this; simp only [num] at this; omega

/-- Replacing the state of an item changes the owners of that item only. -/
theorem setSlot (L : Ledger h S W G) {G' : List Span} {b i : Nat} {s : Slot α}
    (hg : ∀ b' i', (b', i') ≠ (b, i) → owners G' b' i' = owners G b' i')
    (he : owners G' b i + num (h.slot b i) = owners G b i + num s) :
    Ledger (h.setSlot b i s) S W G' where
  s := L.s
  w := L.w
  o b' i' := by
    have h1 := L.o b' i'
    rw [setSlot_slot]
    by_cases e : b' = b ∧ i' = i
    · rw [if_pos e]; obtain ⟨rfl, rfl⟩ := e; simp only [Heap.setSlot]; omega
    · rw [if_neg e, hg _ _ (by simpa using e)]; exact h1
  live := L.live
  fresh := L.fresh
  freshW := L.freshW

end Ledger
end Verif.Rc
