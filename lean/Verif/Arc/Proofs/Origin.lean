import Verif.Arc.Proofs.Tree
/-!
# Where references come from

Every reference to slice data that a call holds after a step is one it held before, the
data of the handle it has borrowed or a child of it, the parent of data it holds, a child of
data it has taken apart, or new.
-/

namespace Verif.Arc
open Verif.Spec (Side Slot Family Rng End)
open Verif.Rc
variable {α : Type}

/-- The call has passed the clone gate of the borrowed handle and is about to look for a child. -/
def past : Pc α → Prop
  | .cs _ _ | .csInc _ | .csNew _ _ | .csCas _ _ _ | .csLose _ _ => True
  | _ => False

inductive Org (a a' : Arena α) (U : List AT) (bh : Option Handle) (pc : Pc α) (x : Nat) : Prop
  | old (h : .ref x ∈ U)
  | bor (g : Nat) (h : bh = some (.strong x g))
  | kid (z g : Nat) (v : DataV) (s : Side) (hb : bh = some (.strong z g)) (hp : past pc) (hz : a'.b.sk.node z = some (.data v))
      (hk : v.kids s = some x)
  | par (w : Nat) (hw : .ref w ∈ U) (hk : a.b.sk.kind w = .data) (hp : a.par w = some x)
  | dead (w : Nat) (v : DataV) (s : Side) (hw : .ref w ∈ U) (h1 : a.b.strong w = 1) (hv : a.b.sk.node w = some (.data v))
      (hk : v.kids s = some x)
  | root (h : a.b.sk.next ≤ x) (hp : (a'.b.sk.lab x).path = []) (hf : a.b.sk.nfam ≤ (a'.b.sk.lab x).fam)

section
variable {a a' : Arena α}

theorem dropStrong_dead {h h' : Heap α} {x : Nat} {v : DataV} {ts : List Task} (e : dropStrong h x = .ok (h', ts)) (h1 : h.strong x = 1)
    (hx : h.sk.node x = some (.data v)) : h'.sk.node x = none := by
  simp only [dropStrong, h1, hx] at e
  cases e
  exact upd_same _ x _

theorem ref_taskT {x : Nat} {ts : List ATask} (h : .ref x ∈ ts.flatMap ataskT) : .base (.dropS x) ∈ ts ∨ ∃ g, .slice x g ∈ ts := by
  obtain ⟨t, h1, h2⟩ := List.mem_flatMap.1 h
  cases t with
  | base t => cases t <;> simp_all [ataskT, taskT]
  | slice d g =>
    simp only [ataskT, List.mem_cons, AT.ref.injEq, reduceCtorEq, List.not_mem_nil, or_false] at h2
    subst h2; exact .inr ⟨g, h1⟩
  | guard g => simp [ataskT] at h2

/-- The tasks a pending drop leads to. -/
theorem task_dropS {t : ATask} {ts : List ATask} {T : List AT} (I : HInv a.b (ataskT t ++ T)) (hp : aplain t)
    (e : ataskStep a t = .ok (a', ts)) {x : Nat} (hx : .ref x ∈ ts.flatMap ataskT) (hk : a.b.sk.kind x = .data) :
    ∃ w v s, .ref w ∈ ataskT t ∧ a.b.strong w = 1 ∧ a.b.sk.node w = some (.data v) ∧ v.kids s = some x ∧ a'.b.sk.node w = none := by
  cases t with
  | base t =>
    obtain ⟨⟨h', ts'⟩, e1, e2⟩ := bind_ok e
    cases pure_ok e2
    obtain ⟨h2, ts2, e3, _, _, _, ho, _⟩ := HInv.task (t := t) I hp
    rw [e1] at e3; cases e3
    have hx' : .dropS x ∈ ts' := by
      rcases ref_taskT hx with h | ⟨g, h⟩ <;> obtain ⟨t', h1, h2⟩ := List.mem_map.1 h <;> cases h2
      exact h1
    rcases ho x hx' with h | ⟨w, v, s, rfl, h1, h2, h3⟩
    · rw [hk] at h; cases h
    · exact ⟨w, v, s, by simp [ataskT, taskT], h3, h1, h2, dropStrong_dead e1 h3 h1⟩
  | slice d g =>
    obtain ⟨⟨h', ts'⟩, e1, e2⟩ := bind_ok e
    cases pure_ok e2
    have I1 : HInv a.b (.ref d :: (.gd g :: T)) := I
    obtain ⟨h2, ts2, e3, _, _, _, ho, _⟩ := I1.dropS
    rw [e1] at e3; cases e3
    have hx' : .dropS x ∈ ts' := by
      rcases ref_taskT hx with h | ⟨g, h⟩ <;> simp only [List.mem_append, List.mem_map, List.mem_singleton, reduceCtorEq, or_false,
        ATask.base.injEq, exists_eq_right, and_false, exists_false] at h
      exact h
    obtain ⟨v, s, h1, h2, h3⟩ := ho x hx'
    exact ⟨d, v, s, by simp [ataskT], h3, h1, h2, dropStrong_dead e1 h3 h1⟩
  | guard g =>
    simp only [ataskStep, Arena.dropG] at e
    split at e
    · cases e
    · split at e
      · cases e; simp at hx
      · split at e <;> cases e
        rcases ref_taskT hx with h | ⟨g, h⟩ <;> obtain ⟨t', _, h2⟩ := List.mem_map.1 h <;> cases h2

theorem org_task {t : ATask} {ts : List ATask} {T : List AT} {bh : Option Handle} {pc : Pc α} (I : HInv a.b (ataskT t ++ T)) (hp : aplain t)
    (e : ataskStep a t = .ok (a', ts)) {x : Nat} (hx : .ref x ∈ ts.flatMap ataskT) (hk : a.b.sk.kind x = .data) :
    Org a a' (ataskT t) bh pc x := by
  obtain ⟨w, v, s, h1, h2, h3, h4, _⟩ := task_dropS I hp e hx hk
  exact .dead w v s h1 h2 h3 h4

theorem ref_kidsFg {v : DataV} {x : Nat} (h : AT.ref x ∈ (kidsFg v).map fgT) : ∃ s, v.kids s = some x := by
  simp only [kidsFg, List.map_append, List.map_map, List.mem_append, List.mem_map, Function.comp, fgT, AT.ref.injEq,
    Option.mem_toList] at h
  rcases h with ⟨c, h1, rfl⟩ | ⟨c, h1, rfl⟩
  · exact ⟨.L, h1⟩
  · exact ⟨.R, h1⟩

theorem ref_guards {x : Nat} {l : List Nat} : AT.ref x ∉ (l.map ATask.guard).flatMap ataskT := by
  intro h
  rcases ref_taskT h with h | ⟨g, h⟩ <;> obtain ⟨t', _, h2⟩ := List.mem_map.1 h <;> cases h2

theorem org_pc {pc : Pc α} {n : Next α} {T : List AT} {bh : Option Handle} (I : HInv a.b (pcT pc ++ T)) (P : ParOK a)
    (hp : pcOK a bh pc) (hup : ∀ d, pc ≠ .up d) (e : PStep a pc a' n) {x : Nat}
    (hx : .ref x ∈ n.tasks.flatMap ataskT ++ pcT n.pc ++ entsT n.push) (hk : a'.b.sk.kind x = .data) :
    Org a a' (pcT pc) bh pc x := by
  cases e with
  | done r => simp [pcT, entsT] at hx
  | new0 xs hl r a1 d hr e =>
    have hre := root_eq e
    simp only [List.flatMap_nil, pcT, frT, List.map_nil, entsT, List.nil_append, List.append_nil, List.mem_singleton, AT.ref.injEq] at hx
    subst hx
    refine .root (Nat.le_of_eq hre.1.symm) ?_ ?_ <;> rw [hre.2.2.2.2.2.2.2.2.2.1]
    exact Nat.le_refl _
  | new1 xs hl r h1 al a1 d eh hr e =>
    have hre := root_eq e
    have hn : h1.sk.next = a.b.sk.next + 1 := by cases eh; rfl
    have hnf : h1.sk.nfam = a.b.sk.nfam := by cases eh; rfl
    simp only [List.flatMap_nil, pcT, frT, List.map_nil, entsT, List.nil_append, List.append_nil, List.mem_singleton, AT.ref.injEq] at hx
    subst hx
    refine .root ?_ ?_ ?_
    · have h2 : x = h1.sk.next := hre.1
      omega
    · rw [hre.2.2.2.2.2.2.2.2.2.1]
    · rw [hre.2.2.2.2.2.2.2.2.2.1]; exact Nat.le_of_eq hnf.symm
  | mutNew xs h r e => simp [pcT, entsT, entT] at hx
  | immut r a1 d e =>
    have hre := root_eq e
    simp only [List.flatMap_nil, pcT, frT, List.map_nil, entsT, List.nil_append, List.append_nil, List.mem_singleton, AT.ref.injEq] at hx
    subst hx
    refine .root (Nat.le_of_eq hre.1.symm) ?_ ?_ <;> rw [hre.2.2.2.2.2.2.2.2.2.1]
    exact Nat.le_refl _
  | split s r h new rest e => simp [pcT, entsT, entT] at hx
  | nxt en r h o r' ts re hre e =>
    obtain ⟨h', o', r2, ts', e', _, ek, ho, _⟩ := HInv.iterNext (T := T) (r := r) I en
    rw [e] at e'; cases e'
    have hx' : .ref x ∈ (ts.map ATask.base).flatMap ataskT := by simpa [pcT, entsT, entT] using hx
    rcases ref_taskT hx' with h' | ⟨g, h'⟩ <;> obtain ⟨t', h1, h2⟩ := List.mem_map.1 h' <;> cases h2
    obtain ⟨b, hb1, hb2⟩ := ho _ h1
    cases hb1
    have hk' : h.sk.kind x = .data := hk
    rw [ek, hb2] at hk'; cases hk'
  | cutF n r h new rest hn e => simp [pcT, entsT, entT] at hx
  | cutB n r h new rest hn e => simp [pcT, entsT, entT] at hx
  | cutNo en n r hn => simp [pcT, entsT, entT] at hx
  | cl1 d g h e =>
    simp only [List.flatMap_nil, pcT, entsT, List.nil_append, List.append_nil, List.mem_singleton, AT.ref.injEq] at hx
    subst hx
    exact .bor g hp
  | cl2 d g h =>
    simp [pcT, entsT, entT] at hx
    exact .old (by simp [pcT, hx])
  | waitC d g s v hv hc => simp [pcT, entsT] at hx
  | waitO d g s v hv hc => simp [pcT, entsT] at hx
  | csSame d s v h hd hs e =>
    simp [pcT, entsT, frT] at hx
    subst hx
    obtain ⟨g, hp⟩ := hp
    exact .bor g hp
  | csKid d s v c hd hs hk => simp [pcT, entsT] at hx
  | csNo d s v hd hs hk => simp [pcT, entsT] at hx
  | csInc c h e =>
    simp [pcT, entsT, frT] at hx
    subst hx
    obtain ⟨_, rfl⟩ := incS_some e
    obtain ⟨z, g, s, v, h1, h2, h3⟩ := hp
    exact .kid z g v s h1 trivial h2 h3
  | csNew d s v h hd e => simp [pcT, entsT] at hx
  | csWin d s r v h1 c h2 hd hk e1 e2 =>
    simp [pcT, entsT, frT] at hx
    subst hx
    obtain ⟨g, v', hb, _⟩ := hp
    exact .kid d g (v.setKid s x) s hb trivial (upd_same _ d _) (by simp [DataV.setKid_kids])
  | csLost d s r v c hd hk => simp [pcT, entsT] at hx
  | csLose c r h e =>
    simp [pcT, entsT, frT, ataskT, taskT] at hx
    subst hx
    obtain ⟨_, rfl⟩ := incS_some e
    obtain ⟨z, g, s, v, h1, h2, h3⟩ := hp
    exact .kid z g v s h1 trivial h2 h3
  | gLoad x fs y v hd => exact .old (by simpa [pcT, entsT] using hx)
  | gTryNo x b pend fs y h =>
    simp only [List.mem_append, ref_guards, false_or] at hx
    refine .old ?_
    simp [pcT, entsT] at hx ⊢; exact hx
  | gTryOk x b pend fs y g hb hg =>
    simp only [List.mem_append, ref_guards, false_or] at hx
    refine .old ?_
    simp [pcT, entsT] at hx ⊢; exact hx
  | gParNo x b fs y v hd hp => exact .old (by simpa [pcT, entsT] using hx)
  | gParUp w b fs y v p h hd hp' hs e =>
    simp [pcT, entsT, frT] at hx
    have hc : Chain a w fs y := hp
    rcases hx with h | h | h
    · exact .old (by simp [pcT, h])
    · subst h
      exact .par w (by simpa [pcT] using hc.held) (hc.data P).1 hp'
    · exact .old (by simp [pcT, frT, h])
  | gCasWin x b og fs y v hd hb =>
    refine .old ?_
    simp [pcT, entsT] at hx ⊢; exact hx
  | gCasLost x b og fs y v hd hb => exact .old (by simpa [pcT, entsT] using hx)
  | gRet0 g y => exact .old (by simpa [pcT, entsT, entT, frT] using hx)
  | gRet1 g f fs y =>
    refine .old ?_
    simp [pcT, entsT, ataskT, taskT, frT] at hx ⊢
    rcases hx with h | h | h
    · exact .inr (.inl h)
    · exact .inl h
    · exact .inr (.inr h)
  | gm0No d g v hv hc => exact .old (by simpa [pcT, entsT, entT] using hx)
  | gm0 d g v hv hc => exact .old (by simpa [pcT, entsT, entT] using hx)
  | gm1No d g v hv hc => exact .old (by simpa [pcT, entsT, entT] using hx)
  | gm1 d g v hv hc => exact .old (by simpa [pcT, entsT, entT] using hx)
  | gm2No d g v hv hc => exact .old (by simpa [pcT, entsT, entT] using hx)
  | gm2 d g v hv hc => exact .old (by simpa [pcT, entsT, entT] using hx)
  | gm3No d g v hv hc => exact .old (by simpa [pcT, entsT, entT] using hx)
  | gm3 d g v hv hc => exact .old (by simpa [pcT, entsT, entT] using hx)
  | gm4No d g v hv hc => exact .old (by simpa [pcT, entsT, entT] using hx)
  | gm4 d g v hv hc => exact .old (by simpa [pcT, entsT, entT] using hx)
  | gmOpenC d g ok v hv => exact .old (by simpa [pcT, entsT, entT] using hx)
  | gmOpenD d g ok v hv => exact .old (by simpa [pcT, entsT, entT] using hx)
  | im0No d g v hv hc => exact .old (by simpa [pcT, entsT, entT] using hx)
  | im0 d g v hv hc => exact .old (by simpa [pcT, entsT, entT] using hx)
  | im1No d g v hv hc => exact .old (by simpa [pcT, entsT, entT] using hx)
  | im1 d g v hv hc => exact .old (by simpa [pcT, entsT, entT] using hx)
  | im2No d g v hv hc => exact .old (by simpa [pcT, entsT, entT] using hx)
  | im2 d g v hd hc =>
    have hx' : AT.ref x ∈ (kidsFg v).map fgT := by simpa [pcT, entsT, entT] using hx
    obtain ⟨s, hs⟩ := ref_kidsFg hx'
    exact .dead d v s (by simp [pcT]) hc (getData_some hd) hs
  | imOpen d g v hv => exact .old (by simpa [pcT, entsT, entT] using hx)
  | imFg0 g r acc => simp [pcT, entsT] at hx
  | imKid c todo g r acc v hd hc =>
    have hx' : AT.ref x ∈ (kidsFg v).map fgT ∨ .ref x ∈ todo.map fgT := by simpa [pcT, entsT, entT, fgT] using hx
    rcases hx' with hx' | hx'
    · obtain ⟨s, hs⟩ := ref_kidsFg hx'
      exact .dead c v s (by simp [pcT, fgT]) hc (getData_some hd) hs
    · exact .old (by simp only [pcT, List.map_cons, List.mem_cons, List.mem_append]; exact .inr (.inr (.inr (.inr hx'))))
  | imKidNo c todo g r acc v hd hc => exact .old (by simpa [pcT, entsT, ataskT, taskT, fgT] using hx)
  | imVal w todo g r acc => exact .old (by simpa [pcT, entsT, ataskT, taskT, fgT] using hx)
  | imGate g r acc v hv => simp [pcT, entsT, ataskT] at hx
  | imOk r acc => simp [pcT, entsT, entT] at hx
  | dg0C d g v hv hc => simp [pcT, entsT] at hx
  | dg0O d g v hv hc => simp [pcT, entsT] at hx
  | dg1 d g v hv => simp [pcT, entsT, entT] at hx
  | upN => exact absurd rfl (hup _)
  | upNo d h => exact absurd rfl (hup _)
  | up d h hs e => exact absurd rfl (hup _)
  | wcN d => simp [pcT, entsT, entT] at hx
  | wc d g hg => simp [pcT, entsT, entT] at hx
  | wdN => simp [pcT, entsT] at hx
  | wd g hg => simp [pcT, entsT] at hx

end
end Verif.Arc
