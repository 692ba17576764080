import Verif.Arc.Proofs.Reach
/-!
# What the invariants say about handles
-/

namespace Verif.Arc
open Verif.Spec (Side Slot Family Rng End)
open Verif.Rc
variable {α : Type}

section
variable {h : Heap α} {T : List AT}

/-- Slice data that is there is held by somebody, or data above it is. -/
theorem HInv.data_held (I : HInv h T) {x : Nat} {v : DataV} (hx : h.sk.node x = some (.data v)) :
    ∃ y w, .ref y ∈ T ∧ h.sk.node y = some (.data w) ∧ (h.sk.lab y).up (h.sk.lab x) := by
  induction x using Nat.strongRecOn generalizing v with
  | ind x ih =>
    have hk := I.base.kinds x _ hx
    have hpos := (I.good.ledger.live x).1 (by rw [hx]; rfl)
    rw [I.good.ledger.s x] at hpos
    by_cases hc : 0 < (aS T).count x
    · exact ⟨x, v, I.ref_of hk (List.count_pos_iff.1 hc), hx, Lab.up_refl _⟩
    · obtain ⟨y, n, _, hy, hm⟩ := nsum_pos (f := fun n => n.srefs.count x) (k := h.sk) (by omega)
      have hm := List.count_pos_iff.1 hm
      have kid : ∀ w s, h.sk.node y = some (.data w) → w.kids s = some x →
          ∃ y w, .ref y ∈ T ∧ h.sk.node y = some (.data w) ∧ (h.sk.lab y).up (h.sk.lab x) := by
        intro w s hw hs
        obtain ⟨h1, h2, _⟩ := I.good.shape.toDShape.dataKid y w s x hw hs
        obtain ⟨z, u, h3, h4, h5⟩ := ih y h1 hw
        exact ⟨z, u, h3, h4, Lab.up_trans h5 (by rw [h2]; exact Lab.up_child _ _)⟩
      rcases I.only y n hy with hkn | hkn
      · obtain ⟨w, rfl⟩ := data_of_kind hkn
        simp only [Node.srefs, List.mem_append, Option.mem_toList] at hm
        rcases hm with (hm | hm) | hm
        · exact kid w .L hy hm
        · exact kid w .R hy hm
        · have := I.good.shape.kinds _ _ (I.good.shape.dataAlloc y w x hy hm)
          rw [hk] at this; cases this
      · cases n <;> simp [Node.kind] at hkn
        simp [Node.srefs] at hm

theorem owners_mem {G : List Span} {b i : Nat} (h : 0 < owners G b i) : ∃ s ∈ G, s.buf = b ∧ s.off ≤ i ∧ i < s.off + s.len := by
  induction G with
  | nil => simp [owners] at h
  | cons s G ih =>
    simp only [owners_cons] at h
    by_cases hs : 0 < s.num b i
    · refine ⟨s, List.mem_cons_self .., ?_⟩
      simp only [Span.num] at hs
      split at hs
      · next h => exact h
      · omega
    · obtain ⟨s', h1, h2⟩ := ih (by omega)
      exact ⟨s', List.mem_cons_of_mem _ h1, h2⟩

/-- Every item that is there belongs to somebody. -/
theorem HInv.item_held (I : HInv h T) {b i : Nat} {a : α} (hs : h.slot b i = .live a) :
    (∃ y w, .ref y ∈ T ∧ h.sk.node y = some (.data w) ∧ w.buf = b ∧ w.off ≤ i ∧ i < w.off + w.len) ∨
    (∃ r, .reg r ∈ T ∧ r.buf = b ∧ r.off ≤ i ∧ i < r.off + r.len) ∨ (∃ s, .own s ∈ T ∧ s.buf = b ∧ s.off ≤ i ∧ i < s.off + s.len) := by
  have h1 := I.good.ledger.o b i
  rw [hs] at h1
  simp only [num] at h1
  by_cases h2 : 0 < owners (aG T) b i
  · obtain ⟨s, h3, h4⟩ := owners_mem h2
    obtain ⟨t, h5, h6⟩ := List.mem_flatMap.1 h3
    cases t with
    | reg r => simp only [AT.G, List.mem_singleton] at h6; subst h6; exact .inr (.inl ⟨r, h5, h4⟩)
    | own s' => simp only [AT.G, List.mem_singleton] at h6; subst h6; exact .inr (.inr ⟨_, h5, h4⟩)
    | _ => simp at h6
  · obtain ⟨x, n, _, hx, hn⟩ := nsum_pos (f := fun n => owners n.spans b i) (k := h.sk) (by omega)
    rcases I.only x n hx with hk | hk
    · obtain ⟨v, rfl⟩ := data_of_kind hk
      obtain ⟨s, h3, h4, h5, h6⟩ := owners_mem hn
      have hin : v.buf = b ∧ v.off ≤ i ∧ i < v.off + v.len := by
        have hle : v.len >>> 1 ≤ v.len := by rw [Nat.shiftRight_eq_div_pow]; omega
        simp only [Node.spans, List.mem_append] at h3
        rcases h3 with h3 | h3 <;> simp only [DataV.ownSub] at h3 <;> split at h3 <;>
          simp only [List.mem_singleton, List.not_mem_nil] at h3 <;> subst h3 <;>
          simp only [DataV.sub, DataV.subOff, DataV.subLen] at h4 h5 h6 <;> refine ⟨h4, ?_, ?_⟩ <;> omega
      obtain ⟨y, w, h7, h8, h9⟩ := I.data_held hx
      have := I.good.shape.data_inside h8 hx h9
      exact .inl ⟨y, w, h7, h8, this.1.symm.trans hin.1, by omega, by omega⟩
    · cases n <;> simp [Node.kind] at hk
      simp [Node.spans, owners] at hn

end

/-! ## What a step does to the items -/

section
variable {a a' : Arena α} {T : List AT}

theorem slots_task {t : ATask} {ts : List ATask} (I : HInv a.b (ataskT t ++ T)) (hp : aplain t) (e : ataskStep a t = .ok (a', ts)) (b i : Nat) :
    a'.b.slot b i = a.b.slot b i ∨ ((∃ x, a.b.slot b i = .live x) ∧ a'.b.slot b i = .dropped) := by
  cases t with
  | base t =>
    obtain ⟨⟨h1, ts1⟩, e1, e2⟩ := bind_ok e
    cases pure_ok e2
    obtain ⟨h', ts', e3, _, _, s, _⟩ := HInv.task (t := t) I hp
    rw [e1] at e3; cases e3
    exact s.slot b i
  | slice d g =>
    obtain ⟨⟨h1, ts1⟩, e1, e2⟩ := bind_ok e
    cases pure_ok e2
    have I1 : HInv a.b (.ref d :: (.gd g :: T)) := I
    obtain ⟨h', ts', e3, _, _, s, _⟩ := I1.dropS
    rw [e1] at e3; cases e3
    exact s.slot b i
  | guard g =>
    simp only [ataskStep, Arena.dropG] at e
    split at e
    · cases e
    · split at e
      · cases e; exact .inl rfl
      · split at e <;> cases e
        exact .inl rfl

theorem newBuf_slots (h : Heap α) (xs : List α) (hb : ∀ b i, h.sk.nbuf ≤ b → h.slot b i = .absent) (b i : Nat) :
    (newBuf h xs).1.slot b i = h.slot b i ∨ (h.slot b i = .absent ∧ ∃ x, (newBuf h xs).1.slot b i = .live x ∧ x ∈ xs) := by
  simp only [newBuf, upd]
  by_cases hbb : b = h.sk.nbuf
  · subst hbb
    simp only [if_true]
    cases hx : xs[i]? with
    | none => exact .inl (hb _ _ (Nat.le_refl _)).symm
    | some x => exact .inr ⟨hb _ _ (Nat.le_refl _), x, rfl, List.mem_of_getElem? hx⟩
  · simp [hbb]

theorem slots_pc {pc : Pc α} {n : Next α} (I : HInv a.b (pcT pc ++ T)) (e : PStep a pc a' n) (b i : Nat) :
    a'.b.slot b i = a.b.slot b i ∨
    (a.b.slot b i = .absent ∧ ∃ x xs, (pc = .new xs ∨ pc = .mutNew xs) ∧ a'.b.slot b i = .live x ∧ x ∈ xs) ∨
    (∃ x en r, pc = .nxt en r ∧ a.b.slot b i = .live x ∧ a'.b.slot b i = .moved ∧ n.pc = .done (.item x)) := by
  have same : ∀ {h h' : Heap α} {x : Nat}, h.incS x = .ok h' → h'.slot = h.slot := by
    intro h h' x e; obtain ⟨_, rfl⟩ := incS_some e; rfl
  have sameO : ∀ {h h' : Heap α} {x : Option Nat}, h.incSOpt x = .ok h' → h'.slot = h.slot := by
    intro h h' x e
    cases x with
    | none => cases e; rfl
    | some x => exact same e
  have sl : ∀ {h' : Heap α}, h'.slot = a.b.slot → h'.slot b i = a.b.slot b i := fun h => by rw [h]
  cases e with
  | new0 xs hl r a1 d hr e =>
    have := newBuf_slots a.b xs I.bufs b i
    have h2 : a'.b.slot = (newBuf a.b xs).1.slot := by cases e; rfl
    rw [h2]
    rcases this with h | ⟨h, x, hx, hm⟩
    · exact .inl h
    · exact .inr (.inl ⟨h, x, xs, .inl rfl, hx, hm⟩)
  | new1 xs hl r h1 al a1 d eh hr e =>
    have := newBuf_slots a.b xs I.bufs b i
    have h2 : a'.b.slot = (newBuf a.b xs).1.slot := by cases eh; cases e; rfl
    rw [h2]
    rcases this with h | ⟨h, x, hx, hm⟩
    · exact .inl h
    · exact .inr (.inl ⟨h, x, xs, .inl rfl, hx, hm⟩)
  | mutNew xs h r e =>
    have := newBuf_slots a.b xs I.bufs b i
    have h2 : (a.withB h).b.slot = (newBuf a.b xs).1.slot := by
      simp only [mutFromBox] at e
      split at e <;> cases e <;> rfl
    rw [h2]
    rcases this with h | ⟨h, x, hx, hm⟩
    · exact .inl h
    · exact .inr (.inl ⟨h, x, xs, .inr rfl, hx, hm⟩)
  | immut r a1 d e => cases e; exact .inl rfl
  | split s r h new rest e =>
    simp only [regSplitOff] at e
    split at e <;>
    · obtain ⟨h2, e1, e2⟩ := bind_ok e
      cases pure_ok e2
      exact .inl (sl (sameO e1))
  | nxt en r h o r' ts re hre e =>
    simp only [iterNext] at e
    split at e
    · cases e; exact .inl rfl
    · split at e
      · cases e
      · split at e
        · next x hx =>
          have key : ∀ {h : Heap α} {p : Nat}, h = a.b.setSlot r.buf p .moved → a.b.slot r.buf p = .live x →
              h.slot b i = a.b.slot b i ∨ (a.b.slot b i = .live x ∧ h.slot b i = .moved) := by
            intro h p hh hx
            subst hh
            rw [setSlot_slot]
            split
            · next e => obtain ⟨rfl, rfl⟩ := e; exact .inr ⟨hx, rfl⟩
            · exact .inl rfl
          split at e <;> split at e <;> cases e
          all_goals
            rcases key rfl hx with h1 | ⟨h1, h2⟩
            · exact .inl h1
            · exact .inr (.inr ⟨x, _, r, rfl, h1, h2, by rw [hre]⟩)
        · cases e
  | cutF n r h new rest hn e =>
    obtain ⟨h', a1, a2, e', _, _, es, _⟩ := HInv.cutF (T := T) (r := r) I hn
    rw [e] at e'; cases e'; exact .inl (sl es)
  | cutB n r h new rest hn e =>
    obtain ⟨h', a1, a2, e', _, _, es, _⟩ := HInv.cutB (T := T) (r := r) I hn
    rw [e] at e'; cases e'; exact .inl (sl es)
  | cl1 d g h e => exact .inl (sl (same e))
  | csSame d s v h hd hs e => exact .inl (sl (same e))
  | csInc c h e => exact .inl (sl (same e))
  | csNew d s v h hd e => exact .inl (sl (sameO e))
  | csWin d s r v h1 c h2 hd hk e1 e2 =>
    refine .inl ?_
    have : h2.slot = a.b.slot := by rw [same e2]; cases e1; rfl
    exact sl this
  | csLose c r h e => exact .inl (sl (same e))
  | gParUp x b fs y v p h hd hp hs e => exact .inl (sl (same e))
  | up d h hs e => exact .inl (sl (same e))
  | _ => exact .inl rfl

end

/-! ## Which call takes items -/

section
variable {c c' : Conf α} {P : Rules α} {zst : Bool}

def nxtOp (cl : Call α) : Prop :=
  match cl.pc with
  | .nxt en _ => ∃ k, cl.op = .next en k
  | .new xs => cl.op = .new xs
  | .mutNew xs => cl.op = .mutNew xs
  | _ => True

def Conf.NxtI (c : Conf α) : Prop := ∀ (i : Nat) cl, c.calls[i]? = some cl → Arc.nxtOp cl

theorem Conf.NxtI.step {i : Nat} (ih : c.NxtI) (e : c.step i = .ok c') : c'.NxtI := by
  intro j clj hj
  cases CStep.of e with
  | none h => exact ih j clj hj
  | task cl t ts a' new hi ht e =>
    rcases after_calls hi hj with ⟨rfl, rfl⟩ | ⟨_, hj⟩
    · exact ih j cl hi
    · exact ih j clj hj
  | pc cl a' n hi ht e2 =>
    rcases after_calls hi hj with ⟨rfl, rfl⟩ | ⟨_, hj⟩
    · have := PStep.of e2
      generalize cl.pc = pc at this
      show Arc.nxtOp { cl with pc := n.pc, tasks := n.tasks, out := _ }
      cases this <;> trivial
    · exact ih j clj hj

theorem Conf.NxtI.start {op : Op α} (ih : c.NxtI) (e : c.start op = some c') : c'.NxtI := by
  intro j clj hj
  cases SStep.of e <;> first
    | exact ih j clj hj
    | (rcases plain_calls hj with h | ⟨_, rfl⟩
       · exact ih j clj h
       · rfl)
    | (rcases shared_calls hj with h | ⟨_, rfl⟩
       · exact ih j clj h
       · trivial)
    | (rcases taking_calls hj with h | ⟨_, rfl⟩
       · exact ih j clj h
       · first | trivial | exact ⟨_, rfl⟩)

theorem Conf.NxtI.write {en : Ent} {j : Nat} {x : α} (ih : c.NxtI) (e : c.write en j x = .ok c') : c'.NxtI := by
  rcases Conf.write_cases e with rfl | ⟨b, i, rfl⟩
  · exact ih
  · exact ih

theorem Conf.Reach.nxtOp (h : Conf.Reach P zst c) : c.NxtI := by
  induction h with
  | init => intro i cl hi; simp [Conf.init] at hi
  | run _ i e ih => exact ih.step e
  | start _ op hp e ih => exact ih.start e
  | write _ k en j x hk _ e ih => exact ih.write e

end
end Verif.Arc
