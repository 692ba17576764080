import Verif.Arc.Proofs.Race1
/-!
# What a step does to references and items
-/

namespace Verif.Arc
open Verif.Spec (Side Slot Family Rng End)
open Verif.Rc
variable {α : Type}

/-- `x` is held, possibly by a value that is held. -/
def Holds (k : Skel) (U : List AT) (x : Nat) : Prop := x ∈ aS U ∨ ∃ y n, y ∈ aS U ∧ k.node y = some n ∧ x ∈ n.srefs

/-- A step of a call that makes the accesses `acc`, holds `U` before and `U'` (or has handed it out) afterwards. -/
structure Mv (a a' : Arena α) (acc : List Acc) (U U' : List AT) : Prop where
  nbuf : a.b.sk.nbuf ≤ a'.b.sk.nbuf
  /-- references are kept, put into something that is kept, or dropped -/
  keep : ∀ x ∈ aS U, (∃ n, a'.b.sk.node x = some n) → Holds a'.b.sk U' x ∨ ∃ r ∈ acc, r.releases (.cnt x)
  /-- only the last reference makes a value disappear; the contents are taken over -/
  kill : ∀ y n, a.b.sk.node y = some n → a'.b.sk.node y = none → y ∈ aS U ∧ a.b.strong y = 1 ∧
    (∃ r ∈ acc, r.acquires (.cnt y)) ∧ ∀ x ∈ n.srefs, x ∈ aS U'
  newAlloc : ∀ y b, a.b.sk.node y = none → a'.b.sk.node y = some (.alloc b) → a.b.sk.nbuf ≤ b ∧ Holds a'.b.sk U' y
  newData : ∀ y v, a.b.sk.node y = none → a'.b.sk.node y = some (.data v) → y ∈ aS U' ∧
    ∀ b i, 0 < v.span.num b i → a.b.sk.nbuf ≤ b ∨ 0 < owners (aG U) b i ∨
      ∃ z w w' s, a.b.sk.node z = some (.data w) ∧ a'.b.sk.node z = some (.data w') ∧ w'.kids s = some y ∧ w.kids s = none ∧
        v.span = w.sub s
  /-- items that are moved out or dropped belong to a range that is held -/
  slot : ∀ b i, a'.b.slot b i = a.b.slot b i ∨ a.b.sk.nbuf ≤ b ∨ (0 < owners (aG U) b i ∧ num (a'.b.slot b i) = 0 ∧
    (a.b.sk.zst = false → ∀ x, a.b.sk.node x = some (.alloc b) → x ∈ aS U'))

section
variable {a a' : Arena α} {U U' : List AT} {acc : List Acc}

theorem Mv.byAcc {acc' : List Acc} (M : Mv a a' acc U U') (h : AccLe acc acc') : Mv a a' acc' U U' :=
  { M with
    keep := fun x hx hl => (M.keep x hx hl).imp id (h.rel _ trivial)
    kill := fun y n h1 h2 => (M.kill y n h1 h2).imp id (.imp id (.imp (h.acq _ trivial) id)) }

theorem Mv.same (hk : a'.b.sk = a.b.sk) (hs : a'.b.slot = a.b.slot)
    (h : ∀ x ∈ aS U, x ∈ aS U' ∨ ∃ r ∈ acc, r.releases (.cnt x)) : Mv a a' acc U U' where
  nbuf := by rw [hk]; exact Nat.le_refl _
  keep x hx _ := (h x hx).imp .inl id
  kill y n h1 h2 := by rw [hk, h1] at h2; cases h2
  newAlloc y b h1 h2 := by rw [hk, h1] at h2; cases h2
  newData y b h1 h2 := by rw [hk, h1] at h2; cases h2
  slot b i := .inl (by rw [hs])

/-- A value disappears. -/
theorem Mv.gone {x : Nat} {n : Node} (hn : a.b.sk.node x = some n) (hk : a'.b.sk.node = upd a.b.sk.node x none)
    (hb : a'.b.sk.nbuf = a.b.sk.nbuf) (hs : a'.b.slot = a.b.slot) (h1 : a.b.strong x = 1) (hacq : ∃ r ∈ acc, r.acquires (.cnt x))
    (hx : x ∈ aS U) (hU : ∀ y ∈ aS U, y = x ∨ y ∈ aS U') (ht : ∀ y ∈ n.srefs, y ∈ aS U') : Mv a a' acc U U' where
  nbuf := by rw [hb]; exact Nat.le_refl _
  keep y hy hl := by
    rcases hU y hy with rfl | h
    · obtain ⟨m, hm⟩ := hl; rw [hk, upd_same] at hm; cases hm
    · exact .inl (.inl h)
  kill y m hy hn' := by
    by_cases hxy : y = x
    · subst hxy
      rw [hn] at hy; cases hy
      exact ⟨hx, h1, hacq, ht⟩
    · rw [hk, upd_ne _ _ hxy, hy] at hn'; cases hn'
  newAlloc y b h1 h2 := by rw [hk] at h2; rw [(upd_none_some h2).2] at h1; cases h1
  newData y b h1 h2 := by rw [hk] at h2; rw [(upd_none_some h2).2] at h1; cases h1
  slot b i := .inl (by rw [hs])

/-- An item of a range is moved out or dropped. -/
theorem Mv.take {r : Reg} {T : List AT} {pos : Nat} {s : Slot α} (I : HInv a.b (.reg r :: T)) (hk : a'.b.sk = a.b.sk)
    (hs : a'.b = a.b.setSlot r.buf pos s) (hn : num s = 0) (h1 : r.off ≤ pos) (h2 : pos < r.off + r.len)
    (hr : .reg r ∈ U) (h : ∀ x ∈ aS U, x ∈ aS U') : Mv a a' acc U U' where
  nbuf := by rw [hk]; exact Nat.le_refl _
  keep x hx _ := .inl (.inl (h x hx))
  kill y n h1 h2 := by rw [hk, h1] at h2; cases h2
  newAlloc y b h1 h2 := by rw [hk, h1] at h2; cases h2
  newData y b h1 h2 := by rw [hk, h1] at h2; cases h2
  slot b i := by
    rw [hs]
    simp only [setSlot_slot]
    split
    · next e =>
      obtain ⟨rfl, rfl⟩ := e
      refine .inr (.inr ⟨?_, hn, fun hz x hx => h x ?_⟩)
      · obtain ⟨A, B, rfl⟩ := List.append_of_mem hr
        simp [Reg.span, Span.num, h1, h2]
        omega
      · cases ha : r.alloc with
        | none =>
          rw [(I.regs r (List.mem_cons_self ..)).2 (by omega) ha] at hz; cases hz
        | some y =>
          have := I.good.shape.allocUniq x y _ hx ((I.regs r (List.mem_cons_self ..)).1 y ha)
          subst this
          exact mem_aS hr (by simp [ha])
    · exact .inl rfl

theorem drop_one {h h' : Heap α} {x : Nat} {ts : List Task} (ho : ∀ n, h.sk.node x = some n → n.kind = .data ∨ n.kind = .alloc)
    (e : dropStrong h x = .ok (h', ts)) : h'.slot = h.slot ∧ h'.sk.nbuf = h.sk.nbuf ∧
    ((h.strong x ≠ 1 ∧ h'.sk = h.sk ∧ ts = []) ∨
     (h.strong x = 1 ∧ ∃ n, h.sk.node x = some n ∧ h'.sk.node = upd h.sk.node x none ∧ ∀ y ∈ n.srefs, y ∈ aS (ts.flatMap taskT))) := by
  simp only [dropStrong] at e
  split at e
  · cases e
  · split at e
    · next h1 => cases e; exact ⟨rfl, rfl, .inl ⟨h1, rfl, rfl⟩⟩
    · next h1 =>
      have h1 : h.strong x = 1 := Decidable.not_not.1 h1
      split at e
      · cases e
      · next v hx =>
        cases e
        refine ⟨rfl, rfl, .inr ⟨h1, _, hx, rfl, fun y hy => ?_⟩⟩
        simp only [Node.srefs, List.mem_append, Option.mem_toList] at hy
        simp only [List.flatMap_append, flatMap_dropS, aS_append, aS_ref, List.mem_append, Option.mem_toList]
        rcases hy with (hy | hy) | hy
        · exact .inl (.inl hy)
        · exact .inl (.inr hy)
        · exact .inr (by simp [taskT, hy])
      · next v hx => have := ho _ hx; simp [Node.kind] at this
      · next v hx => have := ho _ hx; simp [Node.kind] at this
      · next b hx =>
        have hs : ∀ y ∈ (Node.alloc b).srefs, y ∈ aS (List.flatMap taskT []) := by intro y hy; simp [Node.srefs] at hy
        split at e
        · cases e
          exact ⟨rfl, rfl, .inr ⟨h1, _, hx, rfl, hs⟩⟩
        · split at e
          · cases e
            exact ⟨rfl, rfl, .inr ⟨h1, _, hx, rfl, hs⟩⟩
          · cases e

theorem mv_dropS {x : Nat} {h' : Heap α} {ts : List Task} {T : List AT} (I : HInv a.b (.ref x :: T)) (e : dropStrong a.b x = .ok (h', ts))
    (hU : ∀ y, y ∈ aS U ↔ y = x) (hU' : ∀ y ∈ aS (ts.flatMap taskT), y ∈ aS U') :
    Mv a (a.withB h') (dropAcc a x) U U' := by
  obtain ⟨h1, h2, ⟨h3, h4, rfl⟩ | ⟨h3, n, h4, h5, h6⟩⟩ := drop_one (fun n => I.only x n) e
  · refine .same h4 h1 fun y hy => .inr ?_
    rw [hU] at hy
    subst hy; exact dropAcc_rel
  · exact .gone h4 h5 h2 h1 h3 (dropAcc_acq h3) ((hU x).2 rfl) (fun y hy => .inl ((hU y).1 hy)) (fun y hy => hU' y (h6 y hy))

theorem mv_task {t : ATask} {ts : List ATask} {T : List AT} (I : HInv a.b (ataskT t ++ T)) (hp : aplain t)
    (e : ataskStep a t = .ok (a', ts)) : Mv a a' (ataskAcc a t) (ataskT t) (ts.flatMap ataskT) := by
  cases t with
  | base t =>
    obtain ⟨⟨h', ts'⟩, e1, e2⟩ := bind_ok e
    cases pure_ok e2
    rw [flatMap_base]
    cases t with
    | dropS x => exact mv_dropS I e1 (by simp [ataskT, taskT]) (fun _ h => h)
    | userCode => cases e1; exact .same rfl rfl (by simp [ataskT, taskT])
    | dropRcSlice d i => cases hp
    | dropReg r =>
      simp only [taskStep] at e1
      split at e1
      · cases e1
        rw [flatMap_dropS]
        exact .same rfl rfl (fun x hx => .inl (by simpa [ataskT, taskT] using hx))
      · next hl =>
        have I' : HInv a.b (.reg r :: T) := I
        obtain ⟨x, hx⟩ := I'.reg_live (List.mem_cons_self ..) (i := r.off) (Nat.le_refl _) (by omega)
        have hacc := I'.accessible (List.mem_cons_self ..) (by omega)
        rw [hacc] at e1
        simp only [Bool.not_true, Bool.false_eq_true, if_false, hx] at e1
        cases e1
        exact .take (r := r) (s := .dropped) (pos := r.off) I' rfl rfl rfl (Nat.le_refl _) (by omega) (by simp [ataskT, taskT])
          (fun x hx => by simpa [ataskT, taskT] using hx)
  | slice d g =>
    obtain ⟨⟨h', ts'⟩, e1, e2⟩ := bind_ok e
    cases pure_ok e2
    have I' : HInv a.b (.ref d :: (.gd g :: T)) := I
    refine mv_dropS I' e1 (by simp [ataskT]) (fun y hy => ?_)
    rw [List.flatMap_append, flatMap_base, aS_append]
    exact List.mem_append_left _ hy
  | guard g =>
    simp only [ataskStep, Arena.dropG] at e
    split at e
    · cases e
    · split at e
      · cases e; exact .same rfl rfl (by simp [ataskT])
      · split at e <;> cases e
        exact .same rfl rfl (by simp [ataskT])

theorem incS_same {h h' : Heap α} {x : Nat} (e : h.incS x = .ok h') : h'.sk = h.sk ∧ h'.slot = h.slot := by
  obtain ⟨_, rfl⟩ := incS_some e; exact ⟨rfl, rfl⟩

theorem incSOpt_same {h h' : Heap α} {o : Option Nat} (e : h.incSOpt o = .ok h') : h'.sk = h.sk ∧ h'.slot = h.slot := by
  cases o with
  | none => cases e; exact ⟨rfl, rfl⟩
  | some x => exact incS_same e

theorem iterSplit_same {h h' : Heap α} {r1 r2 new rest : Reg} (e : iterSplit h r1 r2 = .ok (h', new, rest)) :
    h'.sk = h.sk ∧ h'.slot = h.slot ∧ ∀ x ∈ r2.alloc, x ∈ new.alloc ∨ x ∈ rest.alloc := by
  simp only [iterSplit] at e
  obtain ⟨⟨h1, a, b⟩, e1, e2⟩ := bind_ok e
  cases pure_ok e2
  simp only [splitAlloc] at e1
  split at e1
  · cases e1; exact ⟨rfl, rfl, fun x hx => .inl hx⟩
  · split at e1
    · obtain ⟨h2, e3, e4⟩ := bind_ok e1
      cases pure_ok e4
      exact ⟨(incSOpt_same e3).1, (incSOpt_same e3).2, fun x hx => .inr hx⟩
    · cases e1; exact ⟨rfl, rfl, fun x hx => .inr hx⟩

theorem root_eq' {r : Reg} {a1 : Arena α} {d : Nat} (e : a.root r = (a1, d)) : d = a.b.sk.next ∧
    a1.b.sk.node = upd a.b.sk.node a.b.sk.next (some (.data ⟨r.buf, r.off, r.len, r.alloc, noKids⟩)) ∧ a1.b.slot = a.b.slot ∧
    a1.b.sk.nbuf = a.b.sk.nbuf := by
  cases e; exact ⟨rfl, rfl, rfl, rfl⟩

/-- What a tree is made of. -/
theorem Mv.root {r : Reg} {a1 : Arena α} {d : Nat} {B : Base a.b.sk} (e : a.root r = (a1, d)) : Mv a a1 acc [.reg r] [.ref d] := by
  obtain ⟨rfl, h2, h3, h4⟩ := root_eq' e
  have hf := B.fresh _ (Nat.le_refl _)
  exact {
    nbuf := by rw [h4]; exact Nat.le_refl _
    keep := fun x hx _ => .inl (.inr ⟨a.b.sk.next, _, by simp, by rw [h2, upd_same], by simpa [Node.srefs, noKids] using hx⟩)
    kill := fun y n h1 h5 => by
      rw [h2] at h5
      by_cases hy : y = a.b.sk.next
      · subst hy; rw [hf] at h1; cases h1
      · rw [upd_ne _ _ hy, h1] at h5; cases h5
    newAlloc := fun y b h1 h5 => by
      rw [h2] at h5
      by_cases hy : y = a.b.sk.next
      · subst hy; rw [upd_same] at h5; cases h5
      · rw [upd_ne _ _ hy, h1] at h5; cases h5
    newData := fun y v h1 h5 => by
      rw [h2] at h5
      by_cases hy : y = a.b.sk.next
      · subst hy; rw [upd_same] at h5; cases h5
        exact ⟨by simp, fun b i h => .inr (.inl (by simpa [Reg.span, DataV.span] using h))⟩
      · rw [upd_ne _ _ hy, h1] at h5; cases h5
    slot := fun b i => .inl (by rw [h3]) }

/-- A new buffer. -/
theorem Mv.made (hb : a.b.sk.nbuf ≤ a'.b.sk.nbuf) (h2 : ∀ y n, a.b.sk.node y = some n → a'.b.sk.node y = some n)
    (h4 : ∀ b i, b ≠ a.b.sk.nbuf → a'.b.slot b i = a.b.slot b i)
    (hn : ∀ y n, a.b.sk.node y = none → a'.b.sk.node y = some n → (n = .alloc a.b.sk.nbuf ∧ Holds a'.b.sk U' y) ∨
      ∃ v, n = .data v ∧ v.buf = a.b.sk.nbuf ∧ y ∈ aS U') : Mv a a' acc [] U' where
  nbuf := hb
  keep x hx := by simp at hx
  kill y n h6 h7 := by rw [h2 y n h6] at h7; cases h7
  newAlloc y b h6 h7 := by
    rcases hn y _ h6 h7 with ⟨h8, h9⟩ | ⟨v, h8, _⟩ <;> cases h8
    exact ⟨Nat.le_refl _, h9⟩
  newData y v h6 h7 := by
    rcases hn y _ h6 h7 with ⟨h8, h9⟩ | ⟨w, h8, h9, h10⟩ <;> cases h8
    refine ⟨h10, fun b i h => .inl ?_⟩
    simp only [Span.num, DataV.span, h9] at h
    split at h <;> omega
  slot b i := by
    by_cases hb : b = a.b.sk.nbuf
    · exact .inr (.inl (by omega))
    · exact .inl (h4 b i hb)

theorem iterNext_same {h h' : Heap α} {r r' : Reg} {en : End} {oo : Option α} {ts : List Task} (e : iterNext h r en = .ok (h', oo, r', ts)) :
    ((r'.alloc = r.alloc ∧ ts = []) ∨ (r'.alloc = none ∧ ts = r.alloc.toList.map .dropS)) ∧
    (h' = h ∨ ∃ pos, r.off ≤ pos ∧ pos < r.off + r.len ∧ h' = h.setSlot r.buf pos .moved) := by
  simp only [iterNext] at e
  split at e
  · cases e; exact ⟨.inr ⟨rfl, rfl⟩, .inl rfl⟩
  · next hl =>
    cases en <;> simp only at e <;> split at e
    · cases e
    · split at e
      · split at e <;> cases e
        · exact ⟨.inr ⟨rfl, rfl⟩, .inr ⟨r.off, by omega, by omega, rfl⟩⟩
        · exact ⟨.inl ⟨rfl, rfl⟩, .inr ⟨r.off, by omega, by omega, rfl⟩⟩
      · cases e
    · cases e
    · split at e
      · split at e <;> cases e
        · exact ⟨.inr ⟨rfl, rfl⟩, .inr ⟨r.off + r.len - 1, by omega, by omega, rfl⟩⟩
        · exact ⟨.inl ⟨rfl, rfl⟩, .inr ⟨r.off + r.len - 1, by omega, by omega, rfl⟩⟩
      · cases e

theorem newBuf_slot {h : Heap α} {xs : List α} {b i : Nat} (hb : b ≠ h.sk.nbuf) : (newBuf h xs).1.slot b i = h.slot b i := by
  show upd h.slot h.sk.nbuf _ b i = _
  rw [upd_ne _ _ hb]

theorem aS_fgT_app (l k : List Fg) : aS ((l ++ k).map fgT) = aS (l.map fgT) ++ aS (k.map fgT) := by simp

theorem mv_pc {o : Ords} {pc : Pc α} {n : Next α} {bh : Option Handle} {T : List AT} (I : HInv a.b (pcT pc ++ T)) (hp : pcOK a bh pc)
    (P : PStep a pc a' n) : Mv a a' (pcAcc o a pc) (pcT pc) (n.tasks.flatMap ataskT ++ pcT n.pc ++ entsT n.push) := by
  have B := I.base
  cases P with
  | new0 xs hl r a1 d hr e =>
    obtain ⟨rfl, h2, h3, h4⟩ := root_eq' e
    refine .made ?_ ?_ ?_ ?_
    · rw [h4]; exact Nat.le_succ _
    · intro y m hy
      rw [h2, upd_ne _ _ (fun h => by subst h; exact absurd (B.lt hy) (Nat.lt_irrefl _))]; exact hy
    · intro b i hb; rw [h3]; exact newBuf_slot hb
    · intro y m hy hm
      rw [h2] at hm
      by_cases hyn : y = a.b.sk.next
      · subst hyn
        have : m = _ := (Option.some.inj ((upd_same ..).symm.trans hm)).symm
        subst this; subst hr
        exact .inr ⟨_, rfl, rfl, by simp [pcT, Arena.withB, newBuf]⟩
      · have : a.b.sk.node y = some m := (upd_ne _ _ hyn).symm.trans hm
        rw [hy] at this; cases this
  | new1 xs hl r h1 al a1 d eh hr e =>
    obtain ⟨rfl, h2, h3, h4⟩ := root_eq' e
    cases eh
    refine .made ?_ ?_ ?_ ?_
    · rw [h4]; exact Nat.le_succ _
    · intro y m hy
      have := B.lt hy
      rw [h2, upd_ne _ _ (by show y ≠ a.b.sk.next + 1; omega)]
      show upd a.b.sk.node a.b.sk.next _ y = _
      rw [upd_ne _ _ (by omega)]; exact hy
    · intro b i hb; rw [h3]; exact newBuf_slot hb
    · intro y m hy hm
      have e1 : (a.withB ((newBuf a.b xs).1.rcNew (.alloc (newBuf a.b xs).2) ⟨0, []⟩).1).b.sk.next = a.b.sk.next + 1 := rfl
      have e2 : (a.withB ((newBuf a.b xs).1.rcNew (.alloc (newBuf a.b xs).2) ⟨0, []⟩).1).b.sk.node = upd a.b.sk.node a.b.sk.next (some (.alloc a.b.sk.nbuf)) := rfl
      replace h2 : a'.b.sk.node = upd (upd a.b.sk.node a.b.sk.next (some (.alloc a.b.sk.nbuf))) (a.b.sk.next + 1) (some (.data ⟨r.buf, r.off, r.len, r.alloc, noKids⟩)) := h2
      have hd : a'.b.sk.node (a.b.sk.next + 1) = some (.data ⟨r.buf, r.off, r.len, r.alloc, noKids⟩) := by rw [h2, upd_same]
      rw [h2] at hm
      by_cases hyn : y = a.b.sk.next + 1
      · subst hyn
        rw [upd_same] at hm; cases hm; subst hr
        exact .inr ⟨_, rfl, rfl, by simp [pcT]; exact .inl rfl⟩
      · rw [upd_ne _ _ hyn] at hm
        by_cases hyn' : y = a.b.sk.next
        · subst hyn'
          rw [upd_same] at hm; cases hm
          refine .inl ⟨rfl, .inr ⟨_, _, ?_, hd, ?_⟩⟩
          · simp [pcT]; exact .inl rfl
          · subst hr; simp [Node.srefs, noKids, newBuf]
        · rw [upd_ne _ _ hyn', hy] at hm; cases hm
  | mutNew xs h r e =>
    simp only [mutFromBox] at e
    split at e
    · cases e
      exact .made (Nat.le_succ _) (fun y m hy => hy) (fun b i hb => newBuf_slot hb) (fun y m hy hm => by
        have : a.b.sk.node y = some m := hm
        rw [hy] at this; cases this)
    · cases e
      refine .made (Nat.le_succ _) (fun y m hy => ?_) (fun b i hb => newBuf_slot hb) (fun y m hy hm => ?_)
      · show upd a.b.sk.node a.b.sk.next _ y = _
        rw [upd_ne _ _ (fun h => by subst h; exact absurd (B.lt hy) (Nat.lt_irrefl _))]; exact hy
      · replace hm : upd a.b.sk.node a.b.sk.next (some (.alloc a.b.sk.nbuf)) y = some m := hm
        by_cases hyn : y = a.b.sk.next
        · subst hyn
          rw [upd_same] at hm; cases hm
          exact .inl ⟨rfl, .inl (by simp [entsT, entT, newBuf, Heap.rcNew, pcT])⟩
        · rw [upd_ne _ _ hyn, hy] at hm; cases hm
  | immut r a1 d e => simpa [pcT, frT, entsT] using Mv.root (B := B) (acc := pcAcc o a (.immut r)) e
  | split s r h new rest e =>
    simp only [regSplitOff] at e
    obtain ⟨h1, e1, e2⟩ := bind_ok e
    cases pure_ok e2
    obtain ⟨h3, h4⟩ := incSOpt_same e1
    refine .same h3 h4 fun x hx => .inl ?_
    cases s <;> simp_all [pcT, entsT, entT]
  | nxt en r h oo r' ts re hre e =>
    have I' : HInv a.b (.reg r :: T) := I
    obtain ⟨h1, h2⟩ := iterNext_same e
    have : ∀ y ∈ aS (pcT (.nxt en r : Pc α)), y ∈ aS ((ts.map ATask.base).flatMap ataskT ++ pcT (.done re : Pc α) ++ entsT [⟨.uniq r', false⟩]) := by
      intro y hy
      rw [flatMap_base]
      rcases h1 with ⟨h3, rfl⟩ | ⟨h3, rfl⟩
      · simpa [pcT, entsT, entT, h3] using hy
      · rw [flatMap_dropS]
        simpa [pcT, entsT, entT, h3] using hy
    rcases h2 with rfl | ⟨pos, h3, h4, rfl⟩
    · exact .same rfl rfl fun x hx => .inl (this x hx)
    · exact .take (r := r) (s := .moved) I' rfl rfl rfl h3 h4 (by simp [pcT]) this
  | cutF n r h new rest hn e =>
    obtain ⟨h1, h2, h3⟩ := iterSplit_same e
    exact .same h1 h2 fun x hx => .inl (by
      have := h3 x (by simpa [pcT] using hx)
      simpa [pcT, entsT, entT] using this)
  | cutB n r h new rest hn e =>
    obtain ⟨h1, h2, h3⟩ := iterSplit_same e
    exact .same h1 h2 fun x hx => .inl (by
      have := h3 x (by simpa [pcT] using hx)
      simpa [pcT, entsT, entT] using this)
  | cutNo en n r hn => exact .same rfl rfl fun x hx => .inl (by simpa [pcT, entsT, entT] using hx)
  | csNew d s v h hd e =>
    obtain ⟨h1, h2⟩ := incSOpt_same e
    exact .same h1 h2 (by simp [pcT])
  | csWin d s r v h1 c h2 hd hk e1 e2 =>
    obtain ⟨g, w, h3, h4, h5, h6⟩ := hp
    have hd := getData_some hd
    rw [hd] at h4; cases h4
    cases e1
    obtain ⟨_, rfl⟩ := incS_some e2
    have hlt := B.lt hd
    have hnode : ∀ y, upd (upd a.b.sk.node a.b.sk.next (some (.data ⟨r.buf, r.off, r.len, r.alloc, noKids⟩))) d (some (.data (v.setKid s a.b.sk.next))) y =
        if y = d then some (.data (v.setKid s a.b.sk.next)) else if y = a.b.sk.next then some (.data ⟨r.buf, r.off, r.len, r.alloc, noKids⟩) else a.b.sk.node y := by
      intro y; simp only [upd]
    have hf := B.fresh _ (Nat.le_refl _)
    refine { nbuf := Nat.le_refl _, keep := ?_, kill := ?_, newAlloc := ?_, newData := ?_, slot := fun b i => .inl rfl }
    · intro x hx _
      refine .inl (.inr ⟨a.b.sk.next, .data ⟨r.buf, r.off, r.len, r.alloc, noKids⟩, by simp [pcT], (hnode _).trans ?_, ?_⟩)
      · rw [if_neg (by omega), if_pos rfl]
      · simpa [pcT, bare, Node.srefs, noKids] using hx
    · intro y m hy hm
      replace hm := (hnode y).symm.trans hm
      split at hm
      · cases hm
      · split at hm
        · cases hm
        · rw [hy] at hm; cases hm
    · intro y b hy hm
      replace hm := (hnode y).symm.trans hm
      split at hm
      · cases hm
      · split at hm
        · cases hm
        · rw [hy] at hm; cases hm
    · intro y u hy hm
      replace hm := (hnode y).symm.trans hm
      split at hm
      · next he => subst he; rw [hd] at hy; cases hy
      · split at hm
        · next he =>
          subst he
          cases hm
          refine ⟨by simp [pcT], fun b i _ => .inr (.inr ⟨d, v, v.setKid s a.b.sk.next, s, hd, ?_, by simp [DataV.setKid], hk, ?_⟩)⟩
          · exact (hnode d).trans (by rw [if_pos rfl])
          · rw [h6]; rfl
        · rw [hy] at hm; cases hm
  | csLose c r h e =>
    obtain ⟨h1, h2⟩ := incS_same e
    exact .same h1 h2 fun x hx => .inl (by
      have : x ∈ r.alloc := by simpa [pcT, bare] using hx
      simp [ataskT, taskT, Option.mem_def.1 this])
  | im2 d g v hd hc =>
    refine .gone (getData_some hd) rfl rfl rfl hc (unwrapAcc_acq hc) (by simp [pcT]) (by simp [pcT]) ?_
    intro y hy
    simp only [pcT, List.flatMap_nil, List.nil_append, entsT, List.append_nil, aS_cons, aS_append, aS_own, aS_kidsFg]
    simp only [Node.srefs, List.mem_append] at hy
    simp only [AT.S, bare, List.mem_append, List.nil_append]
    grind
  | imKid c todo g r acc v hd hc =>
    refine .gone (getData_some hd) rfl rfl rfl hc (unwrapAcc_acq hc) (by simp [pcT, fgT]) ?_ ?_
    · intro y hy
      simp only [pcT, List.map_cons, fgT, aS_cons, aS_append, aS_own, AT.S, List.nil_append, List.mem_append, List.mem_cons,
        List.not_mem_nil, or_false] at hy
      simp only [pcT, List.flatMap_nil, List.nil_append, entsT, List.append_nil, aS_cons, aS_append, aS_own, aS_fgT_app, aS_kidsFg,
        List.map_cons, fgT, AT.S, List.mem_append]
      grind
    · intro y hy
      simp only [Node.srefs, List.mem_append] at hy
      simp only [pcT, List.flatMap_nil, List.nil_append, entsT, List.append_nil, aS_cons, aS_append, aS_own, aS_fgT_app, aS_kidsFg,
        List.map_cons, fgT, AT.S, List.mem_append]
      grind
  | imKidNo c todo g r acc v hd hc =>
    exact .same rfl rfl fun x hx => .inl (by
      simp only [pcT, List.map_cons, fgT, aS_cons, aS_append, aS_own, AT.S, List.nil_append, List.mem_append, List.mem_cons,
        List.not_mem_nil, or_false] at hx
      simp only [pcT, List.flatMap_cons, List.flatMap_nil, ataskT, taskT, entsT, List.append_nil, aS_cons, aS_append, aS_own, aS_nil, AT.S,
        List.nil_append, List.mem_append, List.mem_cons, List.not_mem_nil, or_false]
      grind)
  | imVal w todo g r acc =>
    exact .same rfl rfl fun x hx => .inl (by
      simp only [pcT, List.map_cons, fgT, aS_cons, aS_append, aS_own, AT.S, List.nil_append, List.mem_append] at hx
      simp only [pcT, List.flatMap_cons, List.flatMap_nil, ataskT, taskT, entsT, List.append_nil, aS_cons, aS_append, aS_own, aS_nil, AT.S,
        List.nil_append, List.mem_append]
      grind)
  | cl1 d g h e => exact .same (incS_same e).1 (incS_same e).2 (by simp [pcT])
  | csSame d s v h hd hs e => exact .same (incS_same e).1 (incS_same e).2 (by simp [pcT])
  | csInc c h e => exact .same (incS_same e).1 (incS_same e).2 (by simp [pcT])
  | gParUp x b fs y v p h hd hp hs e =>
    refine .same (incS_same e).1 (incS_same e).2 fun x hx => .inl ?_
    simp only [pcT, frT, aS_cons, AT.S, List.mem_append, List.map_cons] at hx ⊢
    simp; grind
  | up d h hs e => exact .same (incS_same e).1 (incS_same e).2 (by simp [pcT])
  | gRet0 g y => exact .same rfl rfl fun x hx => .inl (by simpa [pcT, frT, entsT, entT] using hx)
  | gRet1 g f fs y =>
    refine .same rfl rfl fun x hx => .inl ?_
    simp only [pcT, frT, aS_cons, AT.S, List.mem_append, List.map_cons] at hx ⊢
    simp [entsT, ataskT, taskT] at hx ⊢; grind
  | imGate g r acc v hv => exact .same rfl rfl fun x hx => .inl (by simpa [pcT, entsT, ataskT] using hx)
  | imOk r acc => exact .same rfl rfl fun x hx => .inl (by simpa [pcT, entsT, entT, bare] using hx)
  | imFg0 g r acc => exact .same rfl rfl fun x hx => .inl (by simpa [pcT, entsT, entT, bare] using hx)
  | _ => exact .same rfl rfl fun x hx => .inl (by simp_all [pcT, entsT, entT])

end
end Verif.Arc
