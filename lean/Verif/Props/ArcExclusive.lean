import Verif.Arc.Proofs.Final
import Verif.Props.ArcFails
/-!
# C38, C39: exclusive access to the items of an `ArcSlice`

`ArcFails.lean`: the two properties are false of programs that upgrade a `WeakSlice` of a part of a slice while
`into_mut` or `get_mut` is running on the slice, or the result of `get_mut` is in use. Without such upgrades they hold,
for any number of threads and every interleaving; so they fail only because of
`WeakSlice::upgrade`.
-/

namespace Verif
open Arc
open Spec (Side Slot)
variable {α : Type} {P : Rules α} {zst : Bool} {c c' : Conf α}

namespace Arc

/-- Two handles at different positions. -/
theorem two_handles {k k' : Nat} {e e' : Ent} (hk : c.get k = some e) (hk' : c.get k' = some e') (hne : k' ≠ k) :
    ∃ R, c.T.Perm (entT e ++ (entT e' ++ R)) := by
  have h1 := list_split (Conf.get_some hk)
  have h2 : some e' ∈ c.hs.take k ++ c.hs.drop (k + 1) := by
    have h2 := Conf.get_some hk'
    rcases Nat.lt_or_gt_of_ne hne with hlt | hgt
    · refine List.mem_append_left _ (List.mem_of_getElem? (i := k') ?_)
      rw [List.getElem?_take_of_lt hlt]; exact h2
    · refine List.mem_append_right _ (List.mem_of_getElem? (i := k' - (k + 1)) ?_)
      rw [List.getElem?_drop]
      have : k + 1 + (k' - (k + 1)) = k' := by omega
      rw [this]; exact h2
  have p1 : c.hs.Perm (some e :: (c.hs.take k ++ c.hs.drop (k + 1))) := by
    conv => lhs; rw [h1]
    exact List.perm_middle
  obtain ⟨A, B, h3⟩ := List.append_of_mem h2
  rw [h3] at p1
  have p2 : c.hs.Perm (some e :: some e' :: (A ++ B)) := p1.trans (List.perm_middle.cons _)
  refine ⟨(A ++ B).flatMap slotT ++ c.calls.flatMap callT, ?_⟩
  have p3 := (p2.flatMap_right slotT).append_right (c.calls.flatMap callT)
  simpa [List.flatMap_cons, slotT, List.append_assoc, T_split] using p3

/-- Two handles that show the same item are two `ArcSlice`s, one of which is a subslice of
the other. -/
theorem overlap (B : c.BI) {k k' b i : Nat} (h1 : c.Shows k b i) (h2 : c.Shows k' b i) (hne : k' ≠ k) :
    ∃ d g m v d' g' m' v', c.get k = some ⟨.strong d g, m⟩ ∧ c.get k' = some ⟨.strong d' g', m'⟩ ∧
      c.a.b.sk.node d = some (.data v) ∧ c.a.b.sk.node d' = some (.data v') ∧
      ((c.a.b.sk.lab d).up (c.a.b.sk.lab d') ∨ (c.a.b.sk.lab d').up (c.a.b.sk.lab d)) := by
  obtain ⟨⟨hh, m⟩, off, len, hk, hr, i1, i2⟩ := h1
  obtain ⟨⟨hh', m'⟩, off', len', hk', hr', i3, i4⟩ := h2
  obtain ⟨R, p⟩ := two_handles hk hk' hne
  have I := B.heap.perm p
  have hn := Rc.num_le_one (c.a.b.slot b i)
  rw [← I.good.ledger.o b i] at hn
  simp only [aG_append, Rc.owners_append] at hn
  have own : ∀ {d g}, Conf.range c.a (.strong d g) = .ok (some (b, off, len)) ∨ Conf.range c.a (.strong d g) = .ok (some (b, off', len')) →
      ∃ v y u, c.a.b.sk.node d = some (.data v) ∧ c.a.b.sk.node y = some (.data u) ∧ (c.a.b.sk.lab d).up (c.a.b.sk.lab y) ∧
        0 < Rc.owners (Rc.Node.data u).spans b i := by
    intro d g h
    rcases h with h | h <;>
    · obtain ⟨v, e1, e2⟩ := Arc.bind_ok h
      cases pure_ok e2
      obtain ⟨y, u, hy, hu, ho⟩ := B.heap.good.owner (getData_some e1) (j := i) (by omega) (by omega)
      exact ⟨v, y, u, getData_some e1, hy, hu, ho⟩
  have lt : ∀ {y : Nat} {n : Rc.Node}, c.a.b.sk.node y = some n → y < c.a.b.sk.next := fun h => B.heap.good.ledger.lt h
  cases hh with
  | weak d g => cases hr
  | uniq r =>
    simp only [Conf.range, Except.ok.injEq, Option.some.injEq, Prod.mk.injEq] at hr
    obtain ⟨rfl, rfl, rfl⟩ := hr
    have o1 : Rc.owners (aG (entT ⟨.uniq r, m⟩)) r.buf i = 1 := by
      simp [entT, AT.G, Rc.Span.num, Rc.Reg.span, i1, i2]
    cases hh' with
    | weak d g => cases hr'
    | uniq r' =>
      simp only [Conf.range, Except.ok.injEq, Option.some.injEq, Prod.mk.injEq] at hr'
      obtain ⟨e1, rfl, rfl⟩ := hr'
      have o2 : Rc.owners (aG (entT ⟨.uniq r', m'⟩)) r.buf i = 1 := by
        simp [entT, AT.G, Rc.Span.num, Rc.Reg.span, i3, i4, e1]
      omega
    | strong d' g' =>
      obtain ⟨v, y, u, _, hy, _, ho⟩ := own (.inr hr')
      have := Rc.nsum_le hy (lt hy) (fun n => Rc.owners n.spans r.buf i)
      omega
  | strong d g =>
    obtain ⟨v, y, u, hd, hy, hu, ho⟩ := own (.inl hr)
    have n1 := Rc.nsum_le hy (lt hy) (fun n => Rc.owners n.spans b i)
    cases hh' with
    | weak d g => cases hr'
    | uniq r' =>
      simp only [Conf.range, Except.ok.injEq, Option.some.injEq, Prod.mk.injEq] at hr'
      obtain ⟨rfl, rfl, rfl⟩ := hr'
      have o2 : Rc.owners (aG (entT ⟨.uniq r', m'⟩)) r'.buf i = 1 := by
        simp [entT, AT.G, Rc.Span.num, Rc.Reg.span, i3, i4]
      omega
    | strong d' g' =>
      obtain ⟨v', y', u', hd', hy', hu', ho'⟩ := own (.inr hr')
      refine ⟨d, g, m, v, d', g', m', v', hk, hk', hd, hd', ?_⟩
      by_cases e : y = y'
      · subst e; exact Rc.Lab.up_comparable hu hu'
      · have := Rc.nsum_le2 hy (lt hy) hy' (lt hy') e (fun n => Rc.owners n.spans b i)
        omega

theorem exclusive_ref (A : c.IA true) {k k' d g b i : Nat}
    (hk : c.get k = some ⟨.strong d g, true⟩) (h1 : c.Shows k b i) (h2 : c.Shows k' b i) : k' = k := by
  refine Decidable.byContradiction fun hne => ?_
  obtain ⟨d1, g1, m, v, d', g', m', v', hk1, hk', hd, hd', hu⟩ := overlap A.bi h1 h2 hne
  rw [hk] at hk1; cases hk1
  have X := A.ph.ent rfl k d g hk
  have S := A.bi.heap.good.shape
  rcases hu with hu | hu
  · have := X.desc d' (Conf.get_tok' hk' (by simp [entT])) (S.toBase.kinds _ _ hd') hu
    cases S.toDShape.dataUniq d' v' d v hd' hd this
    exact hne (excl_ent X hk hk')
  · by_cases e : c.a.b.sk.lab d' = c.a.b.sk.lab d
    · cases S.toDShape.dataUniq d' v' d v hd' hd e
      exact hne (excl_ent X hk hk')
    · obtain ⟨q, u, s, hq, hs, _⟩ := parent_live S.toDShape hd' hd hu e
      exact X.link q u s hq hs

theorem exclusive_own (B : c.BI) {k k' b i : Nat} {r : Rc.Reg} {m : Bool}
    (hk : c.get k = some ⟨.uniq r, m⟩) (h1 : c.Shows k b i) (h2 : c.Shows k' b i) : k' = k := by
  refine Decidable.byContradiction fun hne => ?_
  obtain ⟨d1, g1, m, v, d', g', m', v', hk1, _⟩ := overlap B h1 h2 hne
  rw [hk] at hk1; cases hk1

theorem exclusive (A : c.IA true) {k k' b i : Nat}
    (hk : c.Exclusive k) (h1 : c.Shows k b i) (h2 : c.Shows k' b i) : k' = k := by
  obtain ⟨⟨hh, m⟩, hk, hw⟩ := hk
  cases hh with
  | strong d g =>
    simp only [Conf.writable] at hw
    subst hw
    exact exclusive_ref A hk h1 h2
  | weak d g => cases hw
  | uniq r => exact exclusive_own A.bi hk h1 h2

theorem write_other (A : c.IA true) {k k' b i j : Nat} {e : Ent} {x : α}
    (hk : c.get k = some e) (hw : Conf.writable e = true) (he : c.write e j x = .ok c') (hne : k' ≠ k) (hs : c.Shows k' b i) :
    c'.a.b.slot b i = c.a.b.slot b i := by
  rcases Conf.write_eq he with rfl | ⟨b0, off, len, h', hr, hj, e2, rfl⟩
  · rfl
  · simp only [Rc.writeItem] at e2
    split at e2
    · cases e2
    · split at e2
      · next y hy =>
        cases e2
        simp only [Arena.withB, Rc.setSlot_slot]
        split
        · next h0 =>
          obtain ⟨rfl, rfl⟩ := h0
          exact absurd (exclusive A ⟨e, hk, hw⟩ ⟨e, off, len, hk, hr, by omega, by omega⟩ hs) hne
        · rfl
      · cases e2

end Arc

/-- C38, the part that holds: in programs that upgrade no `WeakSlice` of a part of a slice while `get_mut` or
`into_mut` is running on the slice, and none of the slice or a part of it while `get_mut` is running or a mutable reference
obtained by it is in use, no other handle
of any thread shows any item of such a reference. What is missing for C38: programs with
upgrades at these times, of which it is false (`C38_fails_descendant`, `C38_fails_same`, `C38_C39_tight`). -/
theorem C38_partial (hP : Strict P) (h : Conf.Reach P zst c) {k k' d g b i : Nat}
    (hk : c.get k = some ⟨.strong d g, true⟩) (h1 : c.Shows k b i) (h2 : c.Shows k' b i) : k' = k := exclusive_ref (h.IA hP) hk h1 h2

/-- C39, the part that holds: no other handle of any thread shows any item of a unique slice
(or unique iterator), in programs that upgrade no `WeakSlice` of a part of a slice while `into_mut` is running on the slice.
What is missing for C39: programs where they overlap, of which it is false (`C39_fails`, `C38_C39_tight`). -/
theorem C39_partial (hP : Tame P) (h : Conf.Reach P zst c) {k k' b i : Nat} {r : Rc.Reg} {m : Bool}
    (hk : c.get k = some ⟨.uniq r, m⟩) (h1 : c.Shows k b i) (h2 : c.Shows k' b i) : k' = k := exclusive_own (h.BI hP) hk h1 h2

/-- Both together: whoever may write to an item is the only one who sees it. -/
theorem C38_C39_partial (hP : Strict P) (h : Conf.Reach P zst c) {k k' b i : Nat}
    (hk : c.Exclusive k) (h1 : c.Shows k b i) (h2 : c.Shows k' b i) : k' = k := exclusive (h.IA hP) hk h1 h2

/-- So a user who only has shared access never sees an item change: a write through one handle
leaves all items shown by other handles as they are. -/
theorem C38_C39_no_race (hP : Strict P) (h : Conf.Reach P zst c) {k k' b i j : Nat} {e : Ent} {x : α}
    (hk : c.get k = some e) (hw : Conf.writable e = true) (he : c.write e j x = .ok c') (hne : k' ≠ k) (hs : c.Shows k' b i) :
    c'.a.b.slot b i = c.a.b.slot b i := write_other (h.IA hP) hk hw he hne hs

/-! ## Programs that meet the hypotheses -/

namespace Arc

/-- A `WeakSlice` of the left half exists; a thread calls `get_mut` on the whole slice while
another one clones the `WeakSlice`; the mutable reference is in use. -/
def mutBorrow : List (Act Nat) := prelude ++ [.op (.getMut 0), .run 4 2, .op (.clone 2), .run 5 2, .run 4 10, .wr 4 1 7]

/-- `ArcSlice::into_mut` while another thread clones a `WeakSlice`. -/
def mutOwned : List (Act Nat) := prelude ++ [.op (.intoMut 0), .run 4 2, .op (.clone 2), .run 5 2, .run 4 20, .wr 4 1 7]

/-- A `WeakSlice` of the left half is upgraded and the result dropped again; then `get_mut`
is called on the whole slice, the mutable reference is used, and given back; then the
`WeakSlice` is upgraded again. -/
def mutTurns : List (Act Nat) :=
  prelude ++ [.op (.upgrade 2), .run 4 20, .op (.drop 3), .run 5 30, .op (.getMut 0), .run 6 20, .wr 4 0 7]

def mutTurns2 : List (Act Nat) := mutTurns ++ [.op (.endMut 4), .op (.upgrade 2), .run 7 20]

theorem mutTurns_reach : Conf.Reach (fun c op => c.strict op = true) false (after mutTurns) :=
  execIf_reach (as := mutTurns) .init rfl

theorem mutTurns2_reach : Conf.Reach (fun c op => c.strict op = true) false (after mutTurns2) :=
  execIf_reach (as := mutTurns2) .init rfl

/-- In the middle, handle 4 is a mutable reference and shows item 0; so no other handle does.
In the end, handles 4 and 5 show item 0; so neither of them is exclusive. -/
example : (after mutTurns).get 4 = some ⟨.strong 1 0, true⟩ ∧ (∀ k, (after mutTurns).Shows k 0 0 → k = 4) ∧
    (after mutTurns2).Shows 4 0 0 ∧ (after mutTurns2).Shows 5 0 0 ∧ ¬ (after mutTurns2).Exclusive 4 :=
  ⟨rfl, fun _ h => C38_partial strict_strict mutTurns_reach (k := 4) rfl ⟨⟨.strong 1 0, true⟩, 0, 2, rfl, rfl, by decide, by decide⟩ h,
    ⟨⟨.strong 1 0, false⟩, 0, 2, rfl, rfl, by decide, by decide⟩, ⟨⟨.strong 2 3, false⟩, 0, 1, rfl, rfl, by decide, by decide⟩,
    fun h => absurd (C38_C39_partial strict_strict mutTurns2_reach (b := 0) (i := 0) h ⟨⟨.strong 1 0, false⟩, 0, 2, rfl, rfl, by decide, by decide⟩
      (k' := 5) ⟨⟨.strong 2 3, false⟩, 0, 1, rfl, rfl, by decide, by decide⟩) (by decide)⟩

theorem noUpgrade_reach {as : List (Act Nat)} (h : exec (Conf.init false) as = some (.ok (after as)))
    (hn : ∀ o, Act.op o ∈ as → o.NoUpgrade) : Conf.Reach (only Op.NoUpgrade) false (after as) := exec_reach .init hn h

theorem mutBorrow_reach : Conf.Reach (only Op.NoUpgrade) false (after mutBorrow) :=
  noUpgrade_reach rfl (by
    intro o ho
    simp only [mutBorrow, prelude, List.cons_append, List.nil_append, List.mem_cons, Act.op.injEq, reduceCtorEq, false_or,
      List.not_mem_nil, or_false] at ho
    rcases ho with rfl | rfl | rfl | rfl | rfl | rfl <;> trivial)

theorem mutOwned_reach : Conf.Reach (only Op.NoUpgrade) false (after mutOwned) :=
  noUpgrade_reach rfl (by
    intro o ho
    simp only [mutOwned, prelude, List.cons_append, List.nil_append, List.mem_cons, Act.op.injEq, reduceCtorEq, false_or,
      List.not_mem_nil, or_false] at ho
    rcases ho with rfl | rfl | rfl | rfl | rfl | rfl <;> trivial)

/-- `get_mut` succeeded, and the item that was written is shown by it. -/
example : ∃ d g, (after mutBorrow).get 4 = some ⟨.strong d g, true⟩ ∧ (after mutBorrow).Shows 4 0 1 ∧
    (after mutBorrow).a.b.slot 0 1 = .live 7 :=
  ⟨1, 0, rfl, ⟨⟨.strong 1 0, true⟩, 0, 2, rfl, rfl, by decide, by decide⟩, rfl⟩

/-- `into_mut` succeeded, and the item that was written is shown by the unique slice. -/
example : ∃ r, (after mutOwned).get 4 = some ⟨.uniq r, false⟩ ∧ (after mutOwned).Shows 4 0 1 ∧
    (after mutOwned).a.b.slot 0 1 = .live 7 :=
  ⟨⟨0, 0, 2, some 0⟩, rfl, ⟨⟨.uniq ⟨0, 0, 2, some 0⟩, false⟩, 0, 2, rfl, rfl, by decide, by decide⟩, rfl⟩

end Arc
end Verif
