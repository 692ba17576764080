import Verif.Arc.Proofs.SeqCall
/-!
# Which slices are alive

A slice is alive as long as one that it was cut from is. So whether a `WeakSlice` can be
upgraded depends on the handles only.
-/

namespace Verif.Arc
open Verif.Spec (Side Slot Family Rng End)
open Verif.Rc
variable {α : Type}

/-- Whatever was cut from a live slice is alive. -/
def Whole (k : Skel) : Prop :=
  ∀ d y v, d < k.next → k.kind d = .data → k.node y = some (.data v) → (k.lab y).up (k.lab d) → ∃ n, k.node d = some n

/-- Nothing new, or nothing dies. -/
def Bulk (k k' : Skel) : Prop :=
  k'.next = k.next ∨ ∀ x, x < k'.next → (k.next ≤ x ∨ ∃ n, k.node x = some n) → ∃ n, k'.node x = some n

theorem whole_chain {k k' : Skel} (B : Base k) (S : DShape k) (S' : DShape k') (e : Evo k k') {y d : Nat} {v v' w : DataV}
    (hy : k.node y = some (.data v)) (hd : k.node d = some (.data w)) (hy' : k'.node y = some (.data v')) (hu : (k.lab y).up (k.lab d)) :
    ∃ n, k'.node d = some n := by
  have lt : ∀ {x n}, k.node x = some n → x < k.next := by
    intro x n h
    apply Nat.lt_of_not_le; intro hle
    rw [B.fresh x hle] at h; cases h
  generalize hn : k.next - y = n
  induction n using Nat.strongRecOn generalizing y v v' with
  | ind n ih =>
    rcases Lab.up_cases hu with h | ⟨s, h⟩
    · cases S.dataUniq _ _ _ _ hy hd h
      exact ⟨_, hy'⟩
    · have h1 := S.dataDown _ _ _ _ _ hy hd h
      obtain ⟨c, hc⟩ := Option.isSome_iff_exists.1 h1
      obtain ⟨h2, h3, vc, h4⟩ := S.dataKid _ _ _ _ hy hc
      obtain ⟨v2, h5, _, _, _, _, h6⟩ := e.data _ _ _ hy hy'
      cases h5
      obtain ⟨_, _, vc', h7⟩ := S'.dataKid _ _ _ _ hy' (h6 _ _ hc)
      have := lt hy
      exact ih (k.next - c) (by omega) h4 h7 (by rw [h3]; exact h) rfl

theorem Whole.step {k k' : Skel} (B : Base k) (S : DShape k) (S' : DShape k') (e : Evo k k') (b : Bulk k k') (W : Whole k) (B' : Base k') :
    Whole k' := by
  intro d y v hd hk hy hu
  have lt' : y < k'.next := by
    apply Nat.lt_of_not_le; intro hle
    rw [B'.fresh y hle] at hy; cases hy
  by_cases hdn : d < k.next
  · rw [e.lab d hdn] at hu
    rw [e.kind d hdn] at hk
    by_cases hyn : y < k.next
    · rw [e.lab y hyn] at hu
      have : ∃ v0, k.node y = some (.data v0) := by
        cases h : k.node y with
        | none => rw [e.dead y hyn h] at hy; cases hy
        | some n =>
          have := B.kinds _ _ h
          rw [← e.kind y hyn, B'.kinds _ _ hy] at this
          cases n <;> simp [Node.kind] at this
          exact ⟨_, rfl⟩
      obtain ⟨v0, h0⟩ := this
      obtain ⟨n, hn⟩ := W d y v0 hdn hk h0 hu
      have hkn := B.kinds _ _ hn
      rw [hk] at hkn
      cases n <;> simp [Node.kind] at hkn
      exact whole_chain B S S' e h0 hn hy hu
    · rcases b with b | b
      · omega
      · rcases e.new y v (by omega) hy with ⟨q, w, h1, h2⟩ | h
        · exact b d hd (.inr (W d q w hdn hk h1 (Lab.up_trans h2 hu)))
        · have := B.famLt d hdn (by rw [hk]; simp)
          have := hu.1
          omega
  · rcases b with b | b
    · omega
    · exact b d hd (.inl (by omega))

section
variable {a a' : Arena α} {T : List AT}

theorem bulk_task {t : ATask} {ts : List ATask} (I : HInv a.b (ataskT t ++ T)) (hp : aplain t) (e : ataskStep a t = .ok (a', ts)) :
    Bulk a.b.sk a'.b.sk := by
  refine .inl ?_
  cases t with
  | base t =>
    obtain ⟨⟨h1, ts1⟩, e1, e2⟩ := bind_ok e
    cases pure_ok e2
    obtain ⟨h', ts', e3, _, _, s, _⟩ := HInv.task (t := t) I hp
    rw [e1] at e3; cases e3
    show h1.sk.next = _
    rw [s.sk]
  | slice d g =>
    obtain ⟨⟨h1, ts1⟩, e1, e2⟩ := bind_ok e
    cases pure_ok e2
    have I1 : HInv a.b (.ref d :: (.gd g :: T)) := I
    obtain ⟨h', ts', e3, _, _, s, _⟩ := I1.dropS
    rw [e1] at e3; cases e3
    show h1.sk.next = _
    rw [s.sk]
  | guard g =>
    simp only [ataskStep, Arena.dropG] at e
    split at e
    · cases e
    · split at e
      · cases e; rfl
      · split at e <;> cases e
        rfl

theorem Bulk.sk {k k' : Skel} (e : k' = k) : Bulk k k' := .inl (by rw [e])

theorem Bulk.add {k k' : Skel} {n : Node} (h1 : k'.next = k.next + 1) (h2 : k'.node = upd k.node k.next (some n)) : Bulk k k' := by
  refine .inr fun x hx h => ?_
  rw [h2]
  by_cases e : x = k.next
  · subst e; exact ⟨n, upd_same _ _ _⟩
  · rw [upd_ne _ _ e]
    rcases h with h | h
    · omega
    · exact h

theorem bulk_pc {pc : Pc α} {n : Next α} (I : HInv a.b (pcT pc ++ T)) (e : PStep a pc a' n) : Bulk a.b.sk a'.b.sk := by
  have same : ∀ {h h' : Heap α} {x : Nat}, h.incS x = .ok h' → h'.sk = h.sk := by
    intro h h' x e; obtain ⟨_, rfl⟩ := incS_some e; rfl
  cases e with
  | new0 xs hl r a1 d hr e =>
    cases e
    exact .add rfl rfl
  | new1 xs hl r h1 al a1 d eh hr e =>
    cases eh; cases e
    refine .inr fun x hx h => ?_
    simp only [newBuf, Arena.newBox, Arena.withB, upd] at hx h ⊢
    split
    · exact ⟨_, rfl⟩
    · split
      · exact ⟨_, rfl⟩
      · rcases h with h | h
        · omega
        · exact h
  | mutNew xs h r e =>
    simp only [mutFromBox] at e
    split at e
    · cases e; exact .inl rfl
    · cases e; exact .add rfl rfl
  | immut r a1 d e => cases e; exact .add rfl rfl
  | nxt en r h o r' ts re hre e =>
    obtain ⟨h', o', r2, ts', e', _, ek, _⟩ := HInv.iterNext (T := T) (r := r) I en
    rw [e] at e'; cases e'; exact .sk ek
  | split s r h new rest e =>
    refine .sk ?_
    simp only [regSplitOff] at e
    split at e <;>
    · obtain ⟨h2, e1, e2⟩ := bind_ok e
      cases pure_ok e2
      exact incSOpt_sk e1
  | cutF n r h new rest hn e =>
    obtain ⟨h', a1, a2, e', _, ek, _⟩ := HInv.cutF (T := T) (r := r) I hn
    rw [e] at e'; cases e'; exact .sk ek
  | cutB n r h new rest hn e =>
    obtain ⟨h', a1, a2, e', _, ek, _⟩ := HInv.cutB (T := T) (r := r) I hn
    rw [e] at e'; cases e'; exact .sk ek
  | cl1 d g h e => exact .sk (same e)
  | csSame d s v h hd hs e => exact .sk (same e)
  | csInc c h e => exact .sk (same e)
  | csNew d s v h hd e => exact .sk (incSOpt_sk e)
  | csWin d s r v h1 c h2 hd hk e1 e2 =>
    have e3 := same e2
    cases e1
    refine .inr fun x hx h => ?_
    simp only [Heap.setNode, Arena.newBox, e3, upd] at hx h ⊢
    grind
  | csLose c r h e => exact .sk (same e)
  | gParUp x b fs y v p h hd hp hs e => exact .sk (same e)
  | up d h hs e => exact .sk (same e)
  | _ => exact .inl rfl

end

section
variable {P : Rules α} {zst : Bool} {c c' : Conf α}

theorem Conf.Reach.whole (hP : Tame P) (h : Conf.Reach P zst c) : Whole c.a.b.sk := by
  induction h with
  | init => intro d y v hd; simp [Conf.init, Heap.empty] at hd
  | @run c c' h i e ih =>
    have B := h.BI hP
    have B' := (Conf.Reach.run h i e).BI hP
    obtain ⟨c2, e2, ev⟩ := h.step hP i
    rw [e] at e2; cases e2
    refine ih.step B.heap.base B.heap.good.shape.toDShape B'.heap.good.shape.toDShape ev.evo.evo ?_ B'.heap.base
    cases CStep.of e with
    | none hn => exact .inl rfl
    | task cl t ts a' new hi ht e1 =>
      have pT := Conf.T_perm hi
      have hpl := (B.calls i cl hi).2 t (by rw [ht]; exact List.mem_cons_self ..)
      obtain ⟨R, hR⟩ : ∃ R, HInv c.a.b (ataskT t ++ R) := by
        refine ⟨ts.flatMap ataskT ++ (pcT cl.pc ++ c.rest i), B.heap.perm (pT.trans ?_)⟩
        simp only [callT, ht, List.flatMap_cons, List.append_assoc]
        first | exact .refl _ | exact List.perm_append_comm_assoc _ _ _ | (
          refine (List.perm_append_comm_assoc _ _ _).trans (.append_left _ ?_)
          exact List.perm_append_comm_assoc _ _ _)
      exact bulk_task hR hpl e1
    | pc cl a' n hi ht e1 =>
      have pT := Conf.T_perm hi
      have hR : HInv c.a.b (pcT cl.pc ++ c.rest i) := B.heap.perm (by simpa [callT, ht] using pT)
      exact bulk_pc hR (PStep.of e1)
  | start h op hp e ih => rw [(Conf.start_T e).2]; exact ih
  | write h k en j x hk hw e ih =>
    rcases Conf.write_cases e with rfl | ⟨b, i, rfl⟩
    · exact ih
    · exact ih

/-- When no call is in flight, a slice is alive iff there is an `ArcSlice` to it or to one
it was cut from. -/
theorem alive_iff (hP : Tame P) (h : Conf.Reach P zst c) (hq : c.Quiet) {d : Nat} (hd : d < c.a.b.sk.next) (hk : c.a.b.sk.kind d = .data) :
    c.a.b.strong d ≠ 0 ↔ ∃ m y g b, c.get m = some ⟨.strong y g, b⟩ ∧ (c.a.b.sk.lab y).up (c.a.b.sk.lab d) := by
  have B := h.BI hP
  have live : c.a.b.strong d ≠ 0 ↔ ∃ n, c.a.b.sk.node d = some n := by
    have := B.heap.good.ledger.live d
    rw [← Option.isSome_iff_exists, this]
    omega
  rw [live]
  constructor
  · rintro ⟨n, hn⟩
    have hkn := B.heap.base.kinds _ _ hn
    rw [hk] at hkn
    cases n <;> simp [Node.kind] at hkn
    obtain ⟨y, w, h1, h2, h3⟩ := B.heap.data_held hn
    obtain ⟨m, g, b, hm⟩ := quiet_ref hq h1
    exact ⟨m, y, g, b, hm, h3⟩
  · rintro ⟨m, y, g, b, hm, hu⟩
    obtain ⟨v, hv⟩ := data_of_strong B hm
    exact h.whole hP d y v hd hk hv hu

end
end Verif.Arc
