import Verif.Arc.Proofs.Race9
/-!
# What calls and handles point to, and how steps change it
-/

namespace Verif.Arc
open Verif.Spec (Side Slot Family Rng End)
open Verif.Rc
variable {α : Type}

def regO (r : Reg) : List Obj := r.alloc.toList.map .node

def taskO : Task → List Obj
  | .dropS x => [.node x]
  | .dropReg r => regO r
  | _ => []

def ataskO : ATask → List Obj
  | .base t => taskO t
  | .slice d g => [.node d, .guard g]
  | .guard g => [.guard g]

def frO (fs : List GFrame) : List Obj := fs.flatMap fun f => [.node f.x, .box f.b, .node f.p]

def fgO : Fg → List Obj
  | .kid c => [.node c]
  | .val r => regO r

/-- The objects a program point has pointers to. -/
def pcO : Pc α → List Obj
  | .done _ | .new _ | .mutNew _ => []
  | .immut r | .split _ r | .nxt _ r | .cut _ _ r => regO r
  | .cl1 d g | .cl2 d g | .wait d g _ | .dg0 d g | .dg1 d g => [.node d, .guard g]
  | .cs d _ | .csNew d _ => [.node d]
  | .csInc c => [.node c]
  | .csCas d _ r => .node d :: regO r
  | .csLose c r => .node c :: regO r
  | .gLoad x fs y => .node x :: .node y :: frO fs
  | .gTry x b pend fs y => .node x :: .box b :: .node y :: (pend.toList.map .guard ++ frO fs)
  | .gPar x b fs y => .node x :: .box b :: .node y :: frO fs
  | .gCas x b og fs y => .node x :: .box b :: .node y :: (og.toList.map .guard ++ frO fs)
  | .gRet g fs y => .guard g :: .node y :: frO fs
  | .gm0 d g | .gm1 d g | .gm2 d g | .gm3 d g | .gm4 d g | .gmOpenC d g _ | .gmOpenD d g _ => [.node d, .guard g]
  | .im0 d g | .im1 d g | .im2 d g | .imOpen d g => [.node d, .guard g]
  | .imFg todo g r _ => .guard g :: (regO r ++ todo.flatMap fgO)
  | .imGate g r _ => .guard g :: regO r
  | .imOk r _ => regO r
  | .up d => d.toList.map .node
  | .wc d g => d.toList.map .node ++ g.toList.map .guard
  | .wd g => g.toList.map .guard

def callO (cl : Call α) : List Obj := cl.tasks.flatMap ataskO ++ pcO cl.pc

def entO (e : Ent) : List Obj :=
  match e.h with
  | .strong d g => [.node d, .guard g]
  | .weak d g => d.toList.map .node ++ g.toList.map .guard
  | .uniq r => regO r

def entsO (l : List Ent) : List Obj := l.flatMap entO

/-- Pointers that never change. -/
inductive Lnk (a : Arena α) : Obj → Obj → Prop
  | alloc {x l : Nat} {u : DataV} (h : a.b.sk.node x = some (.data u)) (hl : u.alloc = some l) : Lnk a (.node x) (.node l)
  | par {x p : Nat} {u : DataV} (h : a.b.sk.node x = some (.data u)) (hp : a.par x = some p) : Lnk a (.node x) (.node p)
  | tgt {b g : Nat} (hb : b < a.nbox) (h : a.tgt b = some g) : Lnk a (.box b) (.guard g)
  | gpar {g h : Nat} {w : GuardV} (hg : a.guard g = some w) (hp : w.parent = some h) : Lnk a (.guard g) (.guard h)
  | gof {g : Nat} (h : g < a.ng) : Lnk a (.guard g) (.node (a.gOf g))

/-- `X` is made by the step from `a` to `a'`. -/
def New (a a' : Arena α) (X : Obj) : Prop := a.made X = false ∧ a'.made X = true

/-- What somebody who points to `U` can get hold of by a step. -/
inductive Got (a a' : Arena α) (acc : List Acc) (U : List Obj) : Obj → Prop
  | old {X : Obj} (h : X ∈ U) : Got a a' acc U X
  | made {X : Obj} (h : New a a' X) : Got a a' acc U X
  | lnk {X Y : Obj} (hY : Y ∈ U) (h : Lnk a Y X) : Got a a' acc U X
  | kid {x c : Nat} {u : DataV} {s : Side} (h : a.b.sk.node x = some (.data u)) (hk : u.kids s = some c)
      (hq : ∃ r ∈ acc, r.acquires (.kid x s)) : Got a a' acc U (.node c)
  | box {x : Nat} {u : DataV} (hx : .node x ∈ U) (h : a.b.sk.node x = some (.data u)) (hq : ∃ r ∈ acc, r.acquires (.box x)) :
      Got a a' acc U (.box (a.box x))

/-- What a step does to objects and pointers. -/
structure PMv (a a' : Arena α) (acc : List Acc) (U use U' : List Obj) : Prop where
  made : ∀ X, a.made X = true → a'.made X = true
  dead : ∀ X, a.made X = true → a.live X = false → a'.live X = false
  kill : ∀ X, a.live X = true → a'.live X = false → X ∈ U
  refs : ∀ X ∈ U', Got a a' acc U X
  use : ∀ X ∈ use, X ∈ U ∨ ∃ Y ∈ U, Lnk a Y X
  kid : ∀ x u s c, a'.b.sk.node x = some (.data u) → u.kids s = some c →
    (∃ w, a.b.sk.node x = some (.data w) ∧ w.kids s = some c) ∨ New a a' (.node c) ∧ ∃ r ∈ acc, r.releases (.kid x s)
  box : ∀ x u, a'.b.sk.node x = some (.data u) →
    (∃ w, a.b.sk.node x = some (.data w)) ∧ (a'.box x = a.box x ∨ New a a' (.box (a'.box x)) ∧ ∃ r ∈ acc, r.releases (.box x)) ∨
    New a a' (.node x) ∧ New a a' (.box (a'.box x))
  lnk : ∀ X Y, Lnk a' X Y → Lnk a X Y ∨ New a a' X ∧ (New a a' Y ∨ Y ∈ U)

section
variable {a a' : Arena α} {acc : List Acc} {U use U' : List Obj}

theorem Got.byAcc {acc' : List Acc} (h : AccLe acc acc') {X : Obj} (g : Got a a' acc U X) : Got a a' acc' U X := by
  cases g with
  | old h1 => exact .old h1
  | made h1 => exact .made h1
  | lnk h1 h2 => exact .lnk h1 h2
  | kid h1 h2 h3 => exact .kid h1 h2 (h.acq _ trivial h3)
  | box h1 h2 h3 => exact .box h1 h2 (h.acq _ trivial h3)

theorem PMv.byAcc {acc' : List Acc} (M : PMv a a' acc U use U') (h : AccLe acc acc') : PMv a a' acc' U use U' :=
  { M with
    refs := fun X hX => (M.refs X hX).byAcc h
    kid := fun x u s c h1 h2 => (M.kid x u s c h1 h2).imp id (.imp id (h.rel _ trivial))
    box := fun x u h1 => (M.box x u h1).imp (.imp id (.imp id (.imp id (h.rel _ trivial)))) id }

/-- Nothing is made, and nothing overwritten. -/
theorem PMv.less (hn : ∀ y n, a'.b.sk.node y = some n → a.b.sk.node y = some n) (hx : a'.b.sk.next = a.b.sk.next) (hp : a'.par = a.par)
    (hb : a'.box = a.box) (hnb : a'.nbox = a.nbox) (ht : a'.tgt = a.tgt) (hg : a'.ng = a.ng) (ho : a'.gOf = a.gOf)
    (hG : ∀ g w', a'.guard g = some w' → ∃ w, a.guard g = some w ∧ w.parent = w'.parent)
    (kill : ∀ X, a.live X = true → a'.live X = false → X ∈ U) (refs : ∀ X ∈ U', Got a a' acc U X)
    (use_ : ∀ X ∈ use, X ∈ U ∨ ∃ Y ∈ U, Lnk a Y X) : PMv a a' acc U use U' where
  made X h := by cases X <;> simpa [Arena.made, hx, hnb, hg] using h
  dead X h hl := by
    cases X with
    | node x =>
      cases h' : a'.b.sk.node x with
      | none => simp [Arena.live, h']
      | some n => simp [Arena.live, hn x n h'] at hl
    | guard g =>
      cases h' : a'.guard g with
      | none => simp [Arena.live, h']
      | some n =>
        obtain ⟨w, h1, _⟩ := hG g n h'
        simp [Arena.live, h1] at hl
    | box b => simpa [Arena.live, hnb] using hl
  kill := kill
  refs := refs
  use := use_
  kid x u s c h hk := .inl ⟨u, hn _ _ h, hk⟩
  box x u h := .inl ⟨⟨u, hn _ _ h⟩, .inl (by rw [hb])⟩
  lnk X Y h := by
    refine .inl ?_
    cases h with
    | alloc h hl => exact .alloc (hn _ _ h) hl
    | par h h' => exact .par (hn _ _ h) (hp ▸ h')
    | tgt h h' => exact .tgt (hnb ▸ h) (ht ▸ h')
    | gpar h h' =>
      obtain ⟨w, h1, h2⟩ := hG _ _ h
      exact .gpar h1 (h2.trans h')
    | gof h => rw [ho]; exact .gof (hg ▸ h)

/-- Only counts and items change. -/
theorem PMv.same {h : Heap α} (hs : h.sk = a.b.sk) (refs : ∀ X ∈ U', Got a (a.withB h) acc U X)
    (use_ : ∀ X ∈ use, X ∈ U ∨ ∃ Y ∈ U, Lnk a Y X) : PMv a (a.withB h) acc U use U' := by
  refine .less ?_ ?_ rfl rfl rfl rfl rfl rfl (fun g w h => ⟨w, h, rfl⟩) ?_ refs use_
  · intro y n hy; exact hs ▸ hy
  · show h.sk.next = _; rw [hs]
  · intro X h1 h2
    have : (a.withB h).live X = a.live X := by
      cases X with
      | box b => rfl
      | _ => simp only [Arena.live, Arena.withB, hs]
    rw [this, h1] at h2; cases h2

theorem PMv.idle (refs : ∀ X ∈ U', Got a a acc U X) (use_ : ∀ X ∈ use, X ∈ U ∨ ∃ Y ∈ U, Lnk a Y X) : PMv a a acc U use U' :=
  .same (h := a.b) rfl refs use_

/-- A value is taken apart. -/
theorem PMv.gone {h : Heap α} {x : Nat} (hk : h.sk.node = upd a.b.sk.node x none) (hx : h.sk.next = a.b.sk.next) (hU : .node x ∈ U)
    (refs : ∀ X ∈ U', Got a (a.withB h) acc U X)
    (use_ : ∀ X ∈ use, X ∈ U ∨ ∃ Y ∈ U, Lnk a Y X) : PMv a (a.withB h) acc U use U' := by
  refine .less ?_ hx rfl rfl rfl rfl rfl rfl (fun g w h => ⟨w, h, rfl⟩) ?_ refs use_
  · intro y n hy
    replace hy : h.sk.node y = some n := hy
    rw [hk] at hy
    exact (upd_none_some hy).2
  · intro X h1 h2
    cases X with
    | node y =>
      by_cases hy : y = x
      · subst hy; exact hU
      · have : (a.withB h).live (.node y) = a.live (.node y) := by simp only [Arena.live, Arena.withB, hk, upd_ne _ _ hy]
        rw [this, h1] at h2; cases h2
    | guard g => exact absurd (h1.symm.trans h2) (by simp)
    | box b => exact absurd (h1.symm.trans h2) (by simp)

/-- A guard changes, and stays. -/
theorem PMv.gate {g : Nat} {w w' : GuardV} (hw : a.guard g = some w) (hp : w'.parent = w.parent)
    (refs : ∀ X ∈ U', Got a (a.setG g w') acc U X)
    (use_ : ∀ X ∈ use, X ∈ U ∨ ∃ Y ∈ U, Lnk a Y X) : PMv a (a.setG g w') acc U use U' := by
  refine .less (fun _ _ h => h) rfl rfl rfl rfl rfl rfl rfl ?_ ?_ refs use_
  · intro g2 w2 h2
    simp only [Arena.setG, upd] at h2
    split at h2
    · next e => subst e; cases h2; exact ⟨w, hw, hp.symm⟩
    · exact ⟨w2, h2, rfl⟩
  · intro X h1 h2
    cases X with
    | guard g2 =>
      simp only [Arena.live, Arena.setG, upd] at h1 h2
      split at h2
      · cases h2
      · rw [h1] at h2; cases h2
    | node y => exact absurd (h1.symm.trans h2) (by simp)
    | box b => exact absurd (h1.symm.trans h2) (by simp)

/-- Counts of guards change. -/
theorem PMv.counts (gS gW : Nat → Nat) (refs : ∀ X ∈ U', Got a { a with gS, gW } acc U X)
    (use_ : ∀ X ∈ use, X ∈ U ∨ ∃ Y ∈ U, Lnk a Y X) : PMv a { a with gS, gW } acc U use U' := by
  refine .less (fun _ _ h => h) rfl rfl rfl rfl rfl rfl rfl (fun g w h => ⟨w, h, rfl⟩) ?_ refs use_
  intro X h1 h2
  cases X <;> exact absurd (h1.symm.trans h2) (by simp)

theorem dropHead_use {x : Nat} (hx : .node x ∈ U) : ∀ X ∈ dropHead a x, X ∈ U ∨ ∃ Y ∈ U, Lnk a Y X := by
  intro X hX
  simp only [dropHead, List.mem_cons] at hX
  rcases hX with rfl | hX
  · exact .inl hx
  · split at hX
    · next v hv =>
      split at hX
      · simp only [List.mem_map, Option.mem_toList] at hX
        obtain ⟨p, hp, rfl⟩ := hX
        exact .inr ⟨_, hx, .par hv hp⟩
      · cases hX
    · cases hX

theorem dropAcc_kid {x : Nat} {v : DataV} {s : Side} (h : a.b.strong x = 1) (hv : a.b.sk.node x = some (.data v)) :
    ∃ r ∈ dropAcc a x, r.acquires (.kid x s) :=
  ⟨.rmw (.kid x s) true true, by cases s <;> simp [dropAcc, h, hv], .inr ⟨_, rfl⟩⟩

theorem unwrapAcc_kid {x : Nat} {s : Side} (h : a.b.strong x = 1) : ∃ r ∈ unwrapAcc a x, r.acquires (.kid x s) :=
  ⟨.rmw (.kid x s) true true, by cases s <;> simp [unwrapAcc, h], .inr ⟨_, rfl⟩⟩

theorem pm_dropS {x : Nat} {h' : Heap α} {ts : List Task} (ho : ∀ n, a.b.sk.node x = some n → n.kind = .data ∨ n.kind = .alloc)
    (e : dropStrong a.b x = .ok (h', ts)) (hx : .node x ∈ U) {T : List Obj} (hT : ∀ X ∈ T, X ∈ U) :
    PMv a (a.withB h') (dropAcc a x) U (dropHead a x) (ts.flatMap taskO ++ T) := by
  simp only [dropStrong] at e
  split at e
  · cases e
  · split at e
    · next h1 => cases e; exact .same rfl (fun X hX => .old (hT X (by simpa using hX))) (dropHead_use hx)
    · next h1 =>
      have h1 : a.b.strong x = 1 := Decidable.not_not.1 h1
      split at e
      · cases e
      · next v hv =>
        cases e
        refine .gone rfl rfl hx (fun X hX => ?_) (dropHead_use hx)
        simp only [List.flatMap_append, List.flatMap_map, List.mem_append, List.mem_flatMap, Option.mem_toList, taskO, List.mem_singleton,
          List.flatMap_cons, List.flatMap_nil, List.append_nil, regO, List.mem_map] at hX
        rcases hX with ((⟨c, hc, rfl⟩ | ⟨c, hc, rfl⟩) | ⟨c, hc, rfl⟩) | hX
        · exact .kid hv hc (dropAcc_kid h1 hv)
        · exact .kid hv hc (dropAcc_kid h1 hv)
        · exact .lnk hx (.alloc hv hc)
        · exact .old (hT X hX)
      · next v hx => have := ho _ hx; simp [Node.kind] at this
      · next v hx => have := ho _ hx; simp [Node.kind] at this
      · next b hb =>
        have hR : ∀ {a'}, ∀ X ∈ List.flatMap taskO [] ++ T, Got a a' (dropAcc a x) U X := fun X hX => .old (hT X (by simpa using hX))
        split at e
        · cases e
          exact .gone rfl rfl hx hR (dropHead_use hx)
        · split at e
          · cases e
            exact .gone rfl rfl hx hR (dropHead_use hx)
          · cases e

theorem flatMap_baseO (ts : List Task) : (ts.map ATask.base).flatMap ataskO = ts.flatMap taskO := by
  simp only [List.flatMap_map]; rfl

theorem pm_task {t : ATask} {ts : List ATask} {T : List AT} (I : HInv a.b (ataskT t ++ T)) (hp : aplain t) (e : ataskStep a t = .ok (a', ts))
    (hU : ∀ X ∈ ataskO t, X ∈ U) {W : List Obj} (hW : ∀ X ∈ W, X ∈ U) : PMv a a' (ataskAcc a t) U (ataskHead a t ++ []) (ts.flatMap ataskO ++ W) := by
  rw [List.append_nil]
  cases t with
  | base t =>
    obtain ⟨⟨h', ts'⟩, e1, e2⟩ := bind_ok e
    cases pure_ok e2
    rw [flatMap_baseO]
    cases t with
    | dropS x => exact pm_dropS (fun n => I.only x n) e1 (hU _ (by simp [ataskO, taskO])) hW
    | dropReg r =>
      simp only [taskStep] at e1
      split at e1
      · cases e1
        refine .same rfl (fun X hX => .old ?_) (by simp [ataskHead])
        rw [List.mem_append] at hX
        rcases hX with hX | hX
        · exact hU X (by simpa [ataskO, taskO, regO, List.flatMap_map, eq_comm] using hX)
        · exact hW X hX
      · split at e1
        · cases e1
        · split at e1
          · cases e1
            refine .same rfl (fun X hX => .old ?_) (by simp [ataskHead])
            rw [List.mem_append] at hX
            rcases hX with hX | hX
            · exact hU X (by simpa [ataskO, taskO, regO] using hX)
            · exact hW X hX
          · cases e1
    | dropRcSlice d i => cases hp
    | userCode =>
      cases e1
      exact .same rfl (fun X hX => .old (hW X (by simpa using hX))) (by simp [ataskHead])
  | slice d g =>
    obtain ⟨⟨h', ts'⟩, e1, e2⟩ := bind_ok e
    cases pure_ok e2
    rw [List.flatMap_append, flatMap_baseO, List.append_assoc]
    refine pm_dropS (fun n => I.only d n) e1 (hU _ (by simp [ataskO])) fun X hX => ?_
    rw [List.mem_append] at hX
    rcases hX with hX | hX
    · exact hU X (by simp [ataskO] at hX; simp [ataskO, hX])
    · exact hW X hX
  | guard g =>
    have hg : Obj.guard g ∈ U := hU _ (by simp [ataskO])
    have hu : ∀ X ∈ ataskHead a (.guard g), X ∈ U ∨ ∃ Y ∈ U, Lnk a Y X := by
      intro X hX
      simp only [ataskHead, List.mem_singleton] at hX
      subst hX; exact .inl hg
    simp only [ataskStep, Arena.dropG] at e
    split at e
    · cases e
    · split at e
      · cases e; exact .counts _ a.gW (fun X hX => .old (hW X (by simpa using hX))) hu
      · split at e
        · cases e
        · next w hw =>
          cases e
          refine .less (fun _ _ h => h) rfl rfl rfl rfl rfl rfl rfl ?_ ?_ ?_ hu
          · intro g2 w2 h2
            simp only [upd] at h2
            split at h2
            · cases h2
            · exact ⟨w2, h2, rfl⟩
          · intro X h1 h2
            cases X with
            | guard g2 =>
              simp only [Arena.live, upd] at h1 h2
              split at h2
              · next e => subst e; exact hg
              · rw [h1] at h2; cases h2
            | node y => exact absurd (h1.symm.trans h2) (by simp)
            | box b => exact absurd (h1.symm.trans h2) (by simp)
          · intro X hX
            simp only [List.flatMap_map, List.mem_append, List.mem_flatMap, Option.mem_toList, ataskO, List.mem_singleton] at hX
            rcases hX with ⟨h, hh, rfl⟩ | hX
            · exact .lnk hg (.gpar hw hh)
            · exact .old (hW X hX)

end
end Verif.Arc
