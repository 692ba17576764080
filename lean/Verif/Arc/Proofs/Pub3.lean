import Verif.Arc.Proofs.Pub2
/-!
# What steps of calls do to guards, and whose contents they access
-/

namespace Verif.Arc
open Verif.Spec (Side Slot Family Rng End)
open Verif.Rc
variable {α : Type}

/-- A step of a call that makes the accesses `acc`, holds `U` before and `U'` (or has handed it out) afterwards. -/
structure GMv (a a' : Arena α) (acc : List Acc) (U U' : List AT) : Prop where
  /-- guards are kept, put into another one that is kept, or dropped -/
  keep : ∀ g ∈ aGd U, g ∈ aGd U' ∨ (∃ h w, h ∈ aGd U' ∧ a'.guard h = some w ∧ w.parent = some g) ∨ (∃ r ∈ acc, r.releases (.gcnt g))
  /-- only the last one makes a guard disappear; its parent is taken over -/
  kill : ∀ g w, a.guard g = some w → a'.guard g = none → g ∈ aGd U ∧ a.gS g = 1 ∧ (∃ r ∈ acc, r.acquires (.gcnt g)) ∧
    ∀ h, w.parent = some h → h ∈ aGd U'
  par : ∀ g w w', a.guard g = some w → a'.guard g = some w' → w'.parent = w.parent

section
variable {a a' : Arena α} {U U' : List AT} {acc : List Acc}

theorem GMv.byAcc {acc' : List Acc} (M : GMv a a' acc U U') (h : AccLe acc acc') : GMv a a' acc' U U' :=
  { M with
    keep := fun g hg => (M.keep g hg).imp id (.imp id (h.rel _ trivial))
    kill := fun y n h1 h2 => (M.kill y n h1 h2).imp id (.imp id (.imp (h.acq _ trivial) id)) }

theorem GMv.same (hG : ∀ g w, a.guard g = some w → ∃ w', a'.guard g = some w' ∧ w'.parent = w.parent)
    (h : ∀ g ∈ aGd U, g ∈ aGd U' ∨ ∃ r ∈ acc, r.releases (.gcnt g)) : GMv a a' acc U U' where
  keep g hg := (h g hg).imp id .inr
  kill g w h1 h2 := by
    obtain ⟨w', h3, _⟩ := hG g w h1
    rw [h3] at h2; cases h2
  par g w w' h1 h2 := by
    obtain ⟨w2, h3, h4⟩ := hG g w h1
    rw [h3] at h2; cases h2; exact h4

theorem GMv.idle (hG : a'.guard = a.guard) (h : ∀ g ∈ aGd U, g ∈ aGd U') : GMv a a' acc U U' :=
  .same (fun _ w hw => ⟨w, hG ▸ hw, rfl⟩) (fun g hg => .inl (h g hg))

theorem GMv.gate {g : Nat} {w w' : GuardV} (hw : a.guard g = some w) (hp : w'.parent = w.parent) (h : ∀ g ∈ aGd U, g ∈ aGd U') :
    GMv a (a.setG g w') acc U U' := by
  refine .same (fun g2 w2 h2 => ?_) (fun g hg => .inl (h g hg))
  simp only [Arena.setG, upd]
  split
  · next e => subst e; rw [hw] at h2; cases h2; exact ⟨w', rfl, hp⟩
  · exact ⟨w2, h2, rfl⟩

theorem gm_task {t : ATask} {ts : List ATask} (e : ataskStep a t = .ok (a', ts)) : GMv a a' (ataskAcc a t) (ataskT t) (ts.flatMap ataskT) := by
  cases t with
  | base t =>
    obtain ⟨⟨h', ts'⟩, e1, e2⟩ := bind_ok e
    cases pure_ok e2
    exact .idle rfl (by simp [ataskT])
  | slice d g =>
    obtain ⟨⟨h', ts'⟩, e1, e2⟩ := bind_ok e
    cases pure_ok e2
    refine .idle rfl ?_
    rw [List.flatMap_append]
    simp [ataskT]
  | guard g =>
    simp only [ataskStep, Arena.dropG] at e
    split at e
    · cases e
    · split at e
      · next h1 =>
        cases e
        refine .same (fun g w h => ⟨w, h, rfl⟩) (fun g' hg => .inr ?_)
        have : g' = g := by simpa [ataskT] using hg
        subst this
        exact ⟨.rmw (.gcnt g') false true, by simp [ataskAcc, dropGAcc, h1], ⟨_, rfl⟩⟩
      · next h1 =>
        have h1 : a.gS g = 1 := Decidable.not_not.1 h1
        have hq : .rmw (.gcnt g) true true ∈ ataskAcc a (.guard g) := by simp [ataskAcc, dropGAcc, h1]
        split at e
        · cases e
        · next w hw =>
          cases e
          constructor
          · intro g' hg
            have : g' = g := by simpa [ataskT] using hg
            subst this
            exact .inr (.inr ⟨_, hq, ⟨_, rfl⟩⟩)
          · intro g2 w2 h2 h3
            simp only [upd] at h3
            split at h3
            · next e =>
              subst e
              rw [hw] at h2; cases h2
              exact ⟨by simp [ataskT], h1, ⟨_, hq, .inr ⟨_, rfl⟩⟩, fun h hh => by simp [hh, ataskT]⟩
            · rw [h2] at h3; cases h3
          · intro g2 w2 w3 h2 h3
            simp only [upd] at h3
            split at h3
            · cases h3
            · rw [h2] at h3; cases h3; rfl

theorem gm_pc {o : Ords} {pc : Pc α} {n : Next α} (hf : ∀ g, a.ng ≤ g → a.guard g = none) (hs : PStep a pc a' n) :
    GMv a a' (pcAcc o a pc) (pcT pc) (n.tasks.flatMap ataskT ++ pcT n.pc ++ entsT n.push) := by
  cases hs with
  | new0 xs hl r a1 d hr e => exact .idle (root_all e).2.2.2.2.2.2.2.1 (by simp [pcT])
  | new1 xs hl r h1 al a1 d eh hr e => exact .idle (root_all e).2.2.2.2.2.2.2.1 (by simp [pcT])
  | immut r a1 d e => exact .idle (root_all e).2.2.2.2.2.2.2.1 (by simp [pcT])
  | gCasWin x b og fs y v hd hb =>
    have hne : ∀ g w, a.guard g = some w → g ≠ a.ng := by
      rintro g w h rfl
      rw [hf _ (Nat.le_refl _)] at h; cases h
    constructor
    · intro g hg
      refine .inr (.inl ⟨a.ng, ⟨og, false, false⟩, by simp [pcT], upd_same .., ?_⟩)
      simpa [pcT] using hg
    · intro g w h1 h2
      replace h2 : upd a.guard a.ng _ g = none := h2
      rw [upd_ne _ _ (hne g w h1), h1] at h2; cases h2
    · intro g w w' h1 h2
      replace h2 : upd a.guard a.ng _ g = _ := h2
      rw [upd_ne _ _ (hne g w h1), h1] at h2; cases h2; rfl
  | gm0 d g v hv hc => exact .gate hv rfl (by simp [pcT])
  | gm2 d g v hv hc => exact .gate hv rfl (by simp [pcT])
  | gmOpenC d g ok v hv => exact .gate hv rfl (by simp [pcT])
  | gmOpenD d g ok v hv => exact .gate hv rfl (by simp [pcT, entsT, entT])
  | im0 d g v hv hc => exact .gate hv rfl (by simp [pcT])
  | imOpen d g v hv => exact .gate hv rfl (by simp [pcT, entsT, entT])
  | imGate g r acc v hv => exact .gate hv rfl (by simp [pcT, ataskT])
  | gTryOk x b pend fs y g hb hg => exact .idle rfl (by simp [pcT]; exact fun _ h => .inl h)
  | imKid c todo g r acc v hd hc => exact .idle rfl (by simp [pcT, fgT])
  | imKidNo c todo g r acc v hd hc => exact .idle rfl (by simp [pcT, fgT])
  | imVal w todo g r acc => exact .idle rfl (by simp [pcT, fgT])
  | _ => exact .idle rfl (by simp [pcT, ataskT, entsT, entT])

/-- `X` is held, or borrowed. -/
inductive Has (U : List AT) (bh : Option Handle) : Obj → Prop
  | node {x : Nat} (h : x ∈ aS U) : Has U bh (.node x)
  | guard {g : Nat} (h : g ∈ aGd U) : Has U bh (.guard g)
  | box {b : Nat} : Has U bh (.box b)
  | bnode {d g : Nat} (h : bh = some (.strong d g)) : Has U bh (.node d)
  | bguard {d g : Nat} (h : bh = some (.strong d g)) : Has U bh (.guard g)

theorem data_live {x : Nat} {v : DataV} (h : a.b.getData x = .ok v) : a.live (.node x) = true := by
  simp [Arena.live, getData_some h]

theorem guard_live {g : Nat} {v : GuardV} (h : a.guard g = some v) : a.live (.guard g) = true := by
  simp [Arena.live, h]

/-- A step accesses the contents of objects that are there, and that it holds. -/
theorem body_pc {pc : Pc α} {n : Next α} {bh : Option Handle} (hp : pcOK a bh pc) (hm : ∀ X ∈ pcO pc, a.made X = true) (hs : PStep a pc a' n)
    {X : Obj} (hX : X ∈ pcBody pc) : a.live X = true ∧ Has (pcT pc) bh X := by
  cases hs <;> simp only [pcBody, List.not_mem_nil, List.mem_singleton] at hX <;> subst hX
  case waitC d g s v hv hc => exact ⟨guard_live hv, .bguard hp⟩
  case waitO d g s v hv hc => exact ⟨guard_live hv, .bguard hp⟩
  case dg0C d g v hv hc => exact ⟨guard_live hv, .bguard hp⟩
  case dg0O d g v hv hc => exact ⟨guard_live hv, .bguard hp⟩
  case csSame d s v h hd hs e => obtain ⟨g, hp⟩ := hp; exact ⟨data_live hd, .bnode hp⟩
  case csKid d s v c hd hs hk => obtain ⟨g, hp⟩ := hp; exact ⟨data_live hd, .bnode hp⟩
  case csNo d s v hd hs hk => obtain ⟨g, hp⟩ := hp; exact ⟨data_live hd, .bnode hp⟩
  case csNew d s v h hd e => obtain ⟨g, w, hp, _⟩ := hp; exact ⟨data_live hd, .bnode hp⟩
  case csWin d s r v h1 c h2 hd hk e1 e2 => obtain ⟨g, w, hp, _⟩ := hp; exact ⟨data_live hd, .bnode hp⟩
  case csLost d s r v c hd hk => obtain ⟨g, w, hp, _⟩ := hp; exact ⟨data_live hd, .bnode hp⟩
  case gLoad x fs y v hd => exact ⟨data_live hd, .node (ref_mem_aS (by simpa [pcT] using Chain.held hp))⟩
  case gParNo x b fs y v hd h => exact ⟨data_live hd, .node (ref_mem_aS (by simpa [pcT] using Chain.held hp))⟩
  case gParUp x b fs y v p h hd h1 h2 e => exact ⟨data_live hd, .node (ref_mem_aS (by simpa [pcT] using Chain.held hp))⟩
  case gCasWin x b og fs y v hd h => exact ⟨data_live hd, .node (ref_mem_aS (by simpa [pcT] using Chain.held hp))⟩
  case gCasLost x b og fs y v hd h => exact ⟨data_live hd, .node (ref_mem_aS (by simpa [pcT] using Chain.held hp))⟩
  case gTryNo x b pend fs y h => exact ⟨hm (.box b) (by simp [pcO]), .box⟩
  case gTryOk x b pend fs y g h h' => exact ⟨hm (.box b) (by simp [pcO]), .box⟩
  all_goals exact ⟨guard_live ‹_›, .guard (by simp [pcT])⟩

end
end Verif.Arc
