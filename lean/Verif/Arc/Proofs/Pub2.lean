import Verif.Arc.Proofs.Pub1
/-!
# What steps of calls do to objects and pointers
-/

namespace Verif.Arc
open Verif.Spec (Side Slot Family Rng End)
open Verif.Rc
variable {α : Type}
set_option linter.unusedSimpArgs false

section
variable {a a' : Arena α} {acc : List Acc} {U use U' : List Obj}

/-- Values are made, and at most one is linked to its parent. -/
theorem PMv.more (B : Base a.b.sk) (hx : a.b.sk.next ≤ a'.b.sk.next)
    (hn : ∀ y, y < a.b.sk.next → a'.b.sk.node y = a.b.sk.node y ∨ ∃ w s c, a.b.sk.node y = some (.data w) ∧
      a'.b.sk.node y = some (.data (w.setKid s c)) ∧ a.b.sk.next ≤ c ∧ c < a'.b.sk.next ∧ ∃ r ∈ acc, r.releases (.kid y s))
    (hnew : ∀ y u, a.b.sk.next ≤ y → a'.b.sk.node y = some (.data u) → y < a'.b.sk.next ∧ u.kids = noKids ∧
      (∀ l, u.alloc = some l → .node l ∈ U ∨ a.b.sk.next ≤ l ∧ l < a'.b.sk.next) ∧
      (∀ p, a'.par y = some p → .node p ∈ U) ∧ a.nbox ≤ a'.box y ∧ a'.box y < a'.nbox)
    (hb : ∀ y, y < a.b.sk.next → a'.box y = a.box y) (hp : ∀ y, y < a.b.sk.next → a'.par y = a.par y)
    (hnb : a.nbox ≤ a'.nbox) (ht : ∀ b, b < a.nbox → a'.tgt b = a.tgt b) (ht' : ∀ b, a.nbox ≤ b → b < a'.nbox → a'.tgt b = none)
    (hG : a'.guard = a.guard) (hg : a'.ng = a.ng) (ho : a'.gOf = a.gOf)
    (refs : ∀ X ∈ U', Got a a' acc U X) (use_ : ∀ X ∈ use, X ∈ U ∨ ∃ Y ∈ U, Lnk a Y X) : PMv a a' acc U use U' := by
  have new : ∀ {y}, a.b.sk.next ≤ y → y < a'.b.sk.next → New a a' (.node y) := by
    intro y h1 h2
    exact ⟨by simp [Arena.made]; omega, by simp [Arena.made]; omega⟩
  have newB : ∀ {b}, a.nbox ≤ b → b < a'.nbox → New a a' (.box b) := by
    intro y h1 h2
    exact ⟨by simp [Arena.made]; omega, by simp [Arena.made]; omega⟩
  -- values that were there have changed little
  have old : ∀ y u, y < a.b.sk.next → a'.b.sk.node y = some (.data u) → ∃ w, a.b.sk.node y = some (.data w) ∧ w.alloc = u.alloc := by
    intro y u hy h
    rcases hn y hy with h' | ⟨w, s, c, h1, h2, _⟩
    · exact ⟨u, h' ▸ h, rfl⟩
    · rw [h2] at h; cases h
      exact ⟨w, h1, rfl⟩
  constructor
  · intro X h
    cases X <;> simp [Arena.made, hg] at h ⊢ <;> omega
  · intro X h hl
    cases X with
    | node y =>
      simp [Arena.made, Arena.live] at h hl ⊢
      rcases hn y h with h' | ⟨w, s, c, h1, _⟩
      · rw [h']; exact hl
      · rw [hl] at h1; cases h1
    | guard g => simpa [Arena.live, hG] using hl
    | box b => simp [Arena.made, Arena.live] at h hl; omega
  · intro X h h'
    exfalso
    cases X with
    | node y =>
      simp [Arena.live] at h h'
      obtain ⟨n, hy⟩ := Option.isSome_iff_exists.1 h
      rcases hn y (B.lt hy) with h2 | ⟨w, s, c, _, h2, _⟩
      · rw [h2, hy] at h'; cases h'
      · rw [h2] at h'; cases h'
    | guard g => simp [Arena.live, hG] at h h'; rw [h'] at h; cases h
    | box b => simp [Arena.live] at h h'; omega
  · exact refs
  · exact use_
  · intro x u s c h hk
    by_cases hlt : x < a.b.sk.next
    · rcases hn x hlt with h' | ⟨w, s', c', h1, h2, h3, h4, h5⟩
      · exact .inl ⟨u, h' ▸ h, hk⟩
      · rw [h2] at h; cases h
        simp only [DataV.setKid] at hk
        split at hk
        · next e => subst e; cases hk; exact .inr ⟨new h3 h4, h5⟩
        · exact .inl ⟨w, h1, hk⟩
    · rw [(hnew x u (by omega) h).2.1] at hk; cases hk
  · intro x u h
    by_cases hlt : x < a.b.sk.next
    · obtain ⟨w, h1, _⟩ := old x u hlt h
      exact .inl ⟨⟨w, h1⟩, .inl (hb x hlt)⟩
    · obtain ⟨h1, _, _, _, h2, h3⟩ := hnew x u (by omega) h
      exact .inr ⟨new (by omega) h1, newB h2 h3⟩
  · intro X Y h
    cases h with
    | @alloc x l u h hl =>
      by_cases hlt : x < a.b.sk.next
      · obtain ⟨w, h1, h2⟩ := old x u hlt h
        exact .inl (.alloc h1 (h2.trans hl))
      · obtain ⟨h1, _, h2, _⟩ := hnew x u (by omega) h
        refine .inr ⟨new (by omega) h1, ?_⟩
        rcases h2 l hl with h | ⟨h, h'⟩
        · exact .inr h
        · exact .inl (new h h')
    | @par x p u h h' =>
      by_cases hlt : x < a.b.sk.next
      · obtain ⟨w, h1, h2⟩ := old x u hlt h
        exact .inl (.par h1 (hp x hlt ▸ h'))
      · obtain ⟨h1, _, _, h2, _⟩ := hnew x u (by omega) h
        exact .inr ⟨new (by omega) h1, .inr (h2 p h')⟩
    | @tgt b g h h' =>
      by_cases hlt : b < a.nbox
      · exact .inl (.tgt hlt (ht b hlt ▸ h'))
      · rw [ht' b (by omega) h] at h'; cases h'
    | gpar h h' => exact .inl (.gpar (hG ▸ h) h')
    | gof h => rw [ho]; exact .inl (.gof (hg ▸ h))

theorem root_all {r : Reg} {a1 : Arena α} {d : Nat} (e : a.root r = (a1, d)) : d = a.b.sk.next ∧
    a1.b.sk.node = upd a.b.sk.node a.b.sk.next (some (.data ⟨r.buf, r.off, r.len, r.alloc, noKids⟩)) ∧ a1.b.sk.next = a.b.sk.next + 1 ∧
    a1.par = upd a.par a.b.sk.next none ∧ a1.box = upd a.box a.b.sk.next a.nbox ∧ a1.tgt = upd a.tgt a.nbox none ∧ a1.nbox = a.nbox + 1 ∧
    a1.guard = a.guard ∧ a1.ng = a.ng ∧ a1.gOf = a.gOf := by
  cases e
  exact ⟨rfl, rfl, rfl, rfl, rfl, rfl, rfl, rfl, rfl, rfl⟩

/-- A root is made, in a heap that may have got an allocation before. -/
theorem PMv.root (B : Base a.b.sk) {h : Heap α} {r : Reg} {a1 : Arena α} {d : Nat} (hx : a.b.sk.next ≤ h.sk.next)
    (hn : ∀ y, y < a.b.sk.next → h.sk.node y = a.b.sk.node y) (hnew : ∀ y u, a.b.sk.next ≤ y → h.sk.node y ≠ some (.data u))
    (e : (a.withB h).root r = (a1, d)) (ha : ∀ l, r.alloc = some l → .node l ∈ U ∨ a.b.sk.next ≤ l ∧ l < h.sk.next)
    (use_ : ∀ X ∈ use, X ∈ U ∨ ∃ Y ∈ U, Lnk a Y X) : PMv a a1 acc U use [.node d, .node d] := by
  obtain ⟨hd, h1, h2, h3, h4, h5, h6, h7, h8, h9⟩ := root_all e
  replace hd : d = h.sk.next := hd
  subst hd
  replace h1 : a1.b.sk.node = upd h.sk.node h.sk.next (some (.data ⟨r.buf, r.off, r.len, r.alloc, noKids⟩)) := h1
  replace h2 : a1.b.sk.next = h.sk.next + 1 := h2
  replace h3 : a1.par = upd a.par h.sk.next none := h3
  replace h4 : a1.box = upd a.box h.sk.next a.nbox := h4
  replace h5 : a1.tgt = upd a.tgt a.nbox none := h5
  replace h6 : a1.nbox = a.nbox + 1 := h6
  refine .more B (by omega) ?_ ?_ ?_ ?_ (by omega) ?_ ?_ h7 h8 h9 ?_ use_
  · intro y hy
    rw [h1, upd_ne _ _ (by omega)]; exact .inl (hn y hy)
  · intro y u hy hu
    rw [h1] at hu
    by_cases hyn : y = h.sk.next
    · subst hyn
      rw [upd_same] at hu; cases hu
      refine ⟨by omega, rfl, fun l hl => (ha l hl).imp id fun h => ⟨h.1, by omega⟩, fun p hp => ?_, ?_, ?_⟩
      · rw [h3, upd_same] at hp; cases hp
      · rw [h4, upd_same]; exact Nat.le_refl _
      · rw [h4, upd_same]; omega
    · rw [upd_ne _ _ hyn] at hu; exact absurd hu (hnew y u hy)
  · intro y hy; rw [h4, upd_ne _ _ (by omega)]
  · intro y hy; rw [h3, upd_ne _ _ (by omega)]
  · intro b hb; rw [h5, upd_ne _ _ (by omega)]
  · intro b hb hb'
    have : b = a.nbox := by omega
    subst this
    rw [h5, upd_same]
  · intro X hX
    have : X = .node h.sk.next := by simpa using hX
    subst this
    exact .made ⟨by simp [Arena.made]; omega, by simp [Arena.made]; omega⟩

theorem alloc_use {x : Nat} {v : DataV} (hx : .node x ∈ U) (hv : a.b.sk.node x = some (.data v)) :
    ∀ X ∈ v.alloc.toList.map Obj.node, X ∈ U ∨ ∃ Y ∈ U, Lnk a Y X := by
  intro X hX
  simp only [List.mem_map, Option.mem_toList] at hX
  obtain ⟨l, hl, rfl⟩ := hX
  exact .inr ⟨_, hx, .alloc hv hl⟩

theorem par_use {x : Nat} {v : DataV} (hx : .node x ∈ U) (hv : a.b.sk.node x = some (.data v)) :
    ∀ X ∈ (a.par x).toList.map Obj.node, X ∈ U ∨ ∃ Y ∈ U, Lnk a Y X := by
  intro X hX
  simp only [List.mem_map, Option.mem_toList] at hX
  obtain ⟨l, hl, rfl⟩ := hX
  exact .inr ⟨_, hx, .par hv hl⟩

theorem tgt_use {b : Nat} (hx : .box b ∈ U) (hb : a.made (.box b) = true) :
    ∀ X ∈ (a.tgt b).toList.map Obj.guard, X ∈ U ∨ ∃ Y ∈ U, Lnk a Y X := by
  intro X hX
  simp only [List.mem_map, Option.mem_toList] at hX
  obtain ⟨l, hl, rfl⟩ := hX
  exact .inr ⟨_, hx, .tgt (by simpa [Arena.made] using hb) hl⟩

/-- A guard is made, and put into a box. -/
theorem PMv.gnew {x : Nat} {v : DataV} {og : Option Nat} (hv : a.b.sk.node x = some (.data v)) (hx : .node x ∈ U)
    (ho : ∀ h, og = some h → .guard h ∈ U) (hq : ∃ r ∈ acc, r.releases (.box x))
    (refs : ∀ X ∈ U', X = .guard a.ng ∨ X ∈ U) (use_ : ∀ X ∈ use, X ∈ U ∨ ∃ Y ∈ U, Lnk a Y X) :
    PMv a ({ a with
          ng := a.ng + 1
          guard := upd a.guard a.ng (some ⟨og, false, false⟩)
          gS := upd a.gS a.ng 1
          gW := upd a.gW a.ng 1
          gOf := upd a.gOf a.ng x }.newBox x (some a.ng)) acc U use U' := by
  have newG : New a ({ a with
          ng := a.ng + 1
          guard := upd a.guard a.ng (some ⟨og, false, false⟩)
          gS := upd a.gS a.ng 1
          gW := upd a.gW a.ng 1
          gOf := upd a.gOf a.ng x }.newBox x (some a.ng)) (.guard a.ng) :=
    ⟨by simp [Arena.made], decide_eq_true (Nat.lt_succ_self _)⟩
  have newB : New a ({ a with
          ng := a.ng + 1
          guard := upd a.guard a.ng (some ⟨og, false, false⟩)
          gS := upd a.gS a.ng 1
          gW := upd a.gW a.ng 1
          gOf := upd a.gOf a.ng x }.newBox x (some a.ng)) (.box a.nbox) :=
    ⟨by simp [Arena.made], decide_eq_true (Nat.lt_succ_self _)⟩
  constructor
  · intro X h
    cases X with
    | node y => exact h
    | guard g => exact decide_eq_true (Nat.lt_succ_of_lt (of_decide_eq_true h))
    | box b => exact decide_eq_true (Nat.lt_succ_of_lt (of_decide_eq_true h))
  · intro X h hl
    cases X with
    | node y => exact hl
    | guard g =>
      have h1 : g < a.ng := of_decide_eq_true h
      show (upd a.guard a.ng _ g).isSome = false
      rw [upd_ne _ _ (by omega)]; exact hl
    | box b => simp [Arena.made, Arena.live] at h hl; omega
  · intro X h h'
    exfalso
    cases X with
    | node y => exact absurd (h.symm.trans h') (by simp)
    | guard g =>
      replace h' : (upd a.guard a.ng (some ⟨og, false, false⟩) g).isSome = false := h'
      simp only [upd] at h'
      split at h'
      · cases h'
      · exact absurd (h.symm.trans h') (by simp)
    | box b => exact of_decide_eq_false h' (Nat.lt_succ_of_lt (of_decide_eq_true h))
  · intro X hX
    rcases refs X hX with rfl | h
    · exact .made newG
    · exact .old h
  · exact use_
  · intro y u s c h hk
    exact .inl ⟨u, h, hk⟩
  · intro y u h
    refine .inl ⟨⟨u, h⟩, ?_⟩
    by_cases hy : y = x
    · subst hy
      refine .inr ⟨?_, hq⟩
      show New _ _ (.box (upd a.box y a.nbox y))
      rw [upd_same]; exact newB
    · refine .inl ?_
      show upd a.box x a.nbox y = _
      rw [upd_ne _ _ hy]
  · intro X Y h
    cases h with
    | alloc h hl => exact .inl (.alloc h hl)
    | par h h' => exact .inl (.par h h')
    | @tgt b g h h' =>
      replace h : b < a.nbox + 1 := h
      replace h' : upd a.tgt a.nbox (some a.ng) b = some g := h'
      by_cases hb : b = a.nbox
      · subst hb
        rw [upd_same] at h'; cases h'
        exact .inr ⟨newB, .inl newG⟩
      · rw [upd_ne _ _ hb] at h'
        exact .inl (.tgt (by omega) h')
    | @gpar g h w hw h' =>
      replace hw : upd a.guard a.ng (some ⟨og, false, false⟩) g = some w := hw
      by_cases hg : g = a.ng
      · subst hg
        rw [upd_same] at hw; cases hw
        exact .inr ⟨newG, .inr (ho h h')⟩
      · rw [upd_ne _ _ hg] at hw
        exact .inl (.gpar hw h')
    | @gof g h =>
      replace h : g < a.ng + 1 := h
      show Lnk a _ (.node (upd a.gOf a.ng x g)) ∨ _ ∧ (New _ _ (.node (upd a.gOf a.ng x g)) ∨ .node (upd a.gOf a.ng x g) ∈ U)
      by_cases hg : g = a.ng
      · subst hg
        rw [upd_same]
        exact .inr ⟨newG, .inr hx⟩
      · rw [upd_ne _ _ hg]
        exact .inl (.gof (by omega))

theorem kids_got {x : Nat} {v : DataV} (h : a.b.strong x = 1) (hv : a.b.sk.node x = some (.data v)) :
    ∀ X ∈ (kidsFg v).flatMap fgO, Got a a' (unwrapAcc a x) U X := by
  intro X hX
  simp only [kidsFg, List.flatMap_append, List.flatMap_map, List.mem_append, List.mem_flatMap, Option.mem_toList, fgO, List.mem_singleton] at hX
  rcases hX with ⟨c, hc, rfl⟩ | ⟨c, hc, rfl⟩
  · exact .kid hv hc (unwrapAcc_kid h)
  · exact .kid hv hc (unwrapAcc_kid h)

theorem reg_got {x : Nat} {v : DataV} {r : Reg} (hx : .node x ∈ U) (hv : a.b.sk.node x = some (.data v)) (hr : r.alloc = v.alloc) :
    ∀ X ∈ regO r, Got a a' acc U X := by
  intro X hX
  simp only [regO, hr, List.mem_map, Option.mem_toList] at hX
  obtain ⟨l, hl, rfl⟩ := hX
  exact .lnk hx (.alloc hv hl)

theorem split_alloc {h h' : Heap α} {r1 r2 new rest : Reg} (e : iterSplit h r1 r2 = .ok (h', new, rest)) :
    ∀ l, l ∈ new.alloc ∨ l ∈ rest.alloc → l ∈ r2.alloc := by
  simp only [iterSplit] at e
  obtain ⟨⟨h1, a, b⟩, e1, e2⟩ := bind_ok e
  cases pure_ok e2
  simp only [splitAlloc] at e1
  split at e1
  · cases e1; simp
  · split at e1
    · obtain ⟨h2, e3, e4⟩ := bind_ok e1
      cases pure_ok e4; simp
    · cases e1; simp

theorem off_alloc {h h' : Heap α} {r new rest : Reg} {s : Side} (e : regSplitOff h r s = .ok (h', new, rest)) :
    ∀ l, l ∈ new.alloc ∨ l ∈ rest.alloc → l ∈ r.alloc := by
  simp only [regSplitOff] at e
  obtain ⟨h1, e1, e2⟩ := bind_ok e
  cases pure_ok e2
  intro l
  cases s <;> simp only <;> grind

/-- The pointers of a step were there before. -/
macro "pold" : tactic => `(tactic| (
  intro X hX
  refine .old ?_
  simp only [pcO, entsO, entO, regO, frO, ataskO, taskO, List.flatMap_cons, List.flatMap_nil, List.flatMap_append, List.append_nil,
    List.nil_append, List.mem_cons, List.mem_append, List.not_mem_nil, or_false, false_or, List.mem_map, Option.mem_toList, List.mem_flatMap] at hX ⊢ <;>
  grind))

/-- The objects accessed by a step are pointed to. -/
macro "puse" : tactic => `(tactic| (
  intro X hX
  refine .inl ?_
  simp only [pcO, regO, frO, pcHead, pcBody, List.append_nil,
    List.nil_append, List.mem_cons, List.mem_append, List.not_mem_nil, or_false, false_or, List.mem_map, Option.mem_toList, List.mem_flatMap] at hX ⊢ <;>
  grind))

theorem pm_pc {o : Ords} {pc : Pc α} {n : Next α} {T : List AT} {bh : Option Handle} (I : HInv a.b (pcT pc ++ T))
    (hp : pcOK a bh pc) (hd : ∀ c, KidOf a bh c → ∃ v, a.b.sk.node c = some (.data v))
    (hm : ∀ X ∈ pcO pc, a.made X = true) (hs : PStep a pc a' n) :
    PMv a a' (pcAcc o a pc) (pcO pc) (pcHead a pc ++ pcBody pc) (n.tasks.flatMap ataskO ++ pcO n.pc ++ entsO n.push) := by
  have B := I.base
  cases hs with
  | new0 xs hl r a1 d hr e =>
    refine .root (h := (newBuf a.b xs).1) B (Nat.le_refl _) (fun _ _ => rfl) (fun y u hy => ?_) e (by simp [hr]) (by puse)
    show a.b.sk.node y ≠ _
    rw [B.fresh y hy]; simp
  | new1 xs hl r h1 al a1 d eh hr e =>
    cases eh
    refine .root (h := ((newBuf a.b xs).1.rcNew (.alloc (newBuf a.b xs).2) ⟨0, []⟩).1) B (Nat.le_succ _) (fun y hy => ?_) (fun y u hy => ?_) e ?_ (by puse)
    · show upd a.b.sk.node a.b.sk.next _ y = _
      rw [upd_ne _ _ (by omega)]
    · show upd a.b.sk.node a.b.sk.next _ y ≠ _
      by_cases hyn : y = a.b.sk.next
      · subst hyn; rw [upd_same]; simp
      · rw [upd_ne _ _ hyn, B.fresh y hy]; simp
    · intro l hl
      subst hr
      cases hl
      exact .inr ⟨Nat.le_refl _, Nat.lt_succ_self _⟩
  | mutNew xs h r e =>
    simp only [mutFromBox] at e
    split at e
    · cases e
      exact .less (fun _ _ h => h) rfl rfl rfl rfl rfl rfl rfl (fun g w h => ⟨w, h, rfl⟩)
        (fun X h1 h2 => by cases X <;> exact absurd (h1.symm.trans h2) (by simp)) (by pold) (by puse)
    · cases e
      refine .more B (Nat.le_succ _) (fun y hy => .inl ?_) (fun y u hy hu => ?_) (fun _ _ => rfl) (fun _ _ => rfl) (Nat.le_refl _)
        (fun _ _ => rfl) (fun b h1 h2 => absurd h2 (Nat.not_lt.2 h1)) rfl rfl rfl (fun X hX => ?_) (by puse)
      · show upd a.b.sk.node a.b.sk.next _ y = _
        rw [upd_ne _ _ (by omega)]
      · exfalso
        replace hu : upd a.b.sk.node a.b.sk.next _ y = _ := hu
        by_cases hyn : y = a.b.sk.next
        · subst hyn; rw [upd_same] at hu; cases hu
        · rw [upd_ne _ _ hyn, B.fresh y hy] at hu; cases hu
      · have : X = .node a.b.sk.next := by simpa [pcO, entsO, entO, regO, Heap.rcNew, newBuf, ataskO] using hX
        subst this
        exact .made ⟨by simp [Arena.made], by simp [Arena.made, Arena.withB, Heap.rcNew, newBuf]⟩
  | immut r a1 d e =>
    refine .root (h := a.b) B (Nat.le_refl _) (fun _ _ => rfl) (fun y u hy => ?_) e (fun l hl => .inl (by simp [pcO, regO, hl])) (by puse)
    rw [B.fresh y hy]; simp
  | split s r h new rest e =>
    have h1 := off_alloc e
    simp only [regSplitOff] at e
    obtain ⟨h2, e1, e2⟩ := bind_ok e
    cases pure_ok e2
    refine .same (incSOpt_same e1).1 ?_ (by puse)
    pold
  | nxt en r h oo r' ts re hre e =>
    obtain ⟨h1, h2⟩ := iterNext_same e
    have : ∀ X ∈ (ts.map ATask.base).flatMap ataskO ++ pcO (.done re : Pc α) ++ entsO [⟨.uniq r', false⟩],
        Got a (a.withB h) (pcAcc o a (.nxt en r)) (pcO (.nxt en r : Pc α)) X := by
      intro X hX
      refine .old ?_
      rw [flatMap_baseO] at hX
      rcases h1 with ⟨h3, rfl⟩ | ⟨h3, rfl⟩
      · simpa [pcO, entsO, entO, regO, h3] using hX
      · simpa [pcO, entsO, entO, regO, h3, List.flatMap_map, taskO, eq_comm] using hX
    rcases h2 with rfl | ⟨pos, h3, h4, rfl⟩
    · exact .same rfl this (by puse)
    · exact .same rfl this (by puse)
  | cutF n r h new rest hn e =>
    have h1 := split_alloc e
    replace h1 : ∀ l, new.alloc = some l ∨ rest.alloc = some l → r.alloc = some l := h1
    exact .same (iterSplit_same e).1 (by pold) (by puse)
  | cutB n r h new rest hn e =>
    have h1 := split_alloc e
    replace h1 : ∀ l, new.alloc = some l ∨ rest.alloc = some l → r.alloc = some l := h1
    exact .same (iterSplit_same e).1 (by pold) (by puse)
  | cl1 d g h e => exact .same (incS_same e).1 (by pold) (by puse)
  | cl2 d g hg => exact .counts _ a.gW (by pold) (by puse)
  | csSame d s v h hd hs e => exact .same (incS_same e).1 (by pold) (by puse)
  | csKid d s v c hd' hs hk =>
    have hv := getData_some hd'
    refine .idle (fun X hX => ?_) (by puse)
    have : X = .node c := by simpa [pcO, entsO] using hX
    subst this
    exact .kid hv hk ⟨.load (.kid d s) true, by simp [pcAcc, hd', hs], .inl rfl⟩
  | csInc c h e => exact .same (incS_same e).1 (by pold) (by puse)
  | csNew d s v h hd' e =>
    have hv := getData_some hd'
    refine .same (incSOpt_same e).1 (fun X hX => ?_) (fun X hX => ?_)
    · simp only [pcO, entsO, List.flatMap_nil, List.nil_append, List.append_nil, List.mem_cons] at hX
      rcases hX with rfl | hX
      · exact .old (by simp [pcO])
      · split at hX
        · simp [regO] at hX
        · exact reg_got (x := d) (by simp [pcO]) hv rfl X hX
    · simp only [pcHead, pcBody, hd', List.mem_append, List.mem_cons, List.not_mem_nil, or_false] at hX
      rcases hX with (rfl | hX) | rfl
      · exact .inl (by simp [pcO])
      · exact alloc_use (by simp [pcO]) hv X hX
      · exact .inl (by simp [pcO])
  | csWin d s r v h1 c h2 hd' hk e1 e2 =>
    have hv := getData_some hd'
    have hlt := B.lt hv
    cases e1
    obtain ⟨_, rfl⟩ := incS_some e2
    refine .more B (Nat.le_succ _) (fun y hy => ?_) (fun y u hy hu => ?_) (fun y hy => ?_) (fun y hy => ?_) (Nat.le_succ _)
      (fun b hb => ?_) (fun b h1 h2 => ?_) rfl rfl rfl (fun X hX => ?_) (by puse)
    · by_cases hyd : y = d
      · subst hyd
        refine .inr ⟨v, s, a.b.sk.next, hv, ?_, Nat.le_refl _, Nat.lt_succ_self _, .rmw (.kid y s) true true, by simp [pcAcc, hd', hk], ⟨_, rfl⟩⟩
        show upd _ y _ y = _
        rw [upd_same]
      · refine .inl ?_
        show upd (upd a.b.sk.node a.b.sk.next _) d _ y = _
        rw [upd_ne _ _ hyd, upd_ne _ _ (by omega)]
    · replace hu : upd (upd a.b.sk.node a.b.sk.next _) d _ y = _ := hu
      rw [upd_ne _ _ (by omega)] at hu
      by_cases hyn : y = a.b.sk.next
      · subst hyn
        rw [upd_same] at hu; cases hu
        refine ⟨Nat.lt_succ_self _, rfl, fun l hl => .inl (by simp [pcO, regO, show r.alloc = some l from hl]), fun p hp => ?_, ?_, ?_⟩
        · replace hp : upd a.par a.b.sk.next (some d) a.b.sk.next = some p := hp
          rw [upd_same] at hp; cases hp
          simp [pcO]
        · show a.nbox ≤ upd a.box a.b.sk.next a.nbox a.b.sk.next
          rw [upd_same]; exact Nat.le_refl _
        · show upd a.box a.b.sk.next a.nbox a.b.sk.next < a.nbox + 1
          rw [upd_same]; exact Nat.lt_succ_self _
      · rw [upd_ne _ _ hyn, B.fresh y hy] at hu; cases hu
    · show upd a.box a.b.sk.next _ y = _
      rw [upd_ne _ _ (by omega)]
    · show upd a.par a.b.sk.next _ y = _
      rw [upd_ne _ _ (by omega)]
    · show upd a.tgt a.nbox _ b = _
      rw [upd_ne _ _ (by omega)]
    · have : b = a.nbox := by
        replace h2 : b < a.nbox + 1 := h2
        omega
      subst this
      show upd a.tgt a.nbox _ a.nbox = _
      rw [upd_same]
    · have : X = .node a.b.sk.next := by simpa [pcO, entsO, frO, Heap.rcNew] using hX
      subst this
      exact .made ⟨by simp [Arena.made], decide_eq_true (Nat.lt_succ_self _)⟩
  | csLost d s r v c hd' hk =>
    have hv := getData_some hd'
    refine .idle (fun X hX => ?_) (by puse)
    simp only [pcO, entsO, List.flatMap_nil, List.nil_append, List.append_nil, List.mem_cons] at hX
    rcases hX with rfl | hX
    · exact .kid hv hk ⟨.load (.kid d s) true, by simp [pcAcc, hd', hk], .inl rfl⟩
    · exact .old (by simp [pcO, hX])
  | csLose c r h e =>
    obtain ⟨v, hv⟩ := hd c hp
    refine .same (incS_same e).1 (by pold) (fun X hX => ?_)
    simp only [pcHead, pcBody, List.append_nil, List.mem_cons] at hX
    rcases hX with rfl | hX
    · exact .inl (by simp [pcO])
    · exact par_use (by simp [pcO]) hv X hX
  | gLoad x fs y v hd' =>
    refine .idle (fun X hX => ?_) (by puse)
    simp only [pcO, entsO, List.flatMap_nil, List.nil_append, List.append_nil, List.mem_cons, Option.toList, List.map_nil] at hX
    rcases hX with rfl | rfl | hX
    · exact .old (by simp [pcO])
    · exact .box (by simp [pcO]) (getData_some hd') ⟨.load (.box x) true, by simp [pcAcc], .inl rfl⟩
    · exact .old (by simp [pcO, hX])
  | gTryNo x b pend fs y h =>
    refine .idle ?_ (fun X hX => ?_)
    · intro X hX
      refine .old ?_
      simp only [pcO, List.flatMap_map, List.mem_append, List.mem_flatMap, ataskO, List.mem_singleton, List.mem_cons, List.mem_map, entsO,
        List.not_mem_nil, false_and, exists_false, or_false] at hX ⊢
      grind
    · simp only [pcHead, pcBody, List.mem_append, List.mem_singleton] at hX
      rcases hX with hX | rfl
      · exact tgt_use (by simp [pcO]) (hm _ (by simp [pcO])) X hX
      · exact .inl (by simp [pcO])
  | gTryOk x b pend fs y g hb hg =>
    refine .counts _ a.gW ?_ ?_
    · intro X hX
      simp only [pcO, List.flatMap_map, List.mem_append, List.mem_flatMap, ataskO, List.mem_singleton, List.mem_cons, List.mem_map, entsO,
        List.not_mem_nil, false_and, exists_false, or_false] at hX
      by_cases hXg : X = .guard g
      · subst hXg
        exact .lnk (Y := .box b) (by simp [pcO]) (.tgt (by simpa [Arena.made] using hm (.box b) (by simp [pcO])) hb)
      · refine .old ?_
        simp only [pcO, List.mem_append, List.mem_cons, List.mem_map]
        grind
    · intro X hX
      simp only [pcHead, pcBody, List.mem_append, List.mem_singleton] at hX
      rcases hX with hX | rfl
      · exact tgt_use (by simp [pcO]) (hm _ (by simp [pcO])) X hX
      · exact .inl (by simp [pcO])
  | gParNo x b fs y v hd' h =>
    refine .idle (by pold) (fun X hX => ?_)
    simp only [pcHead, pcBody, List.mem_append, List.mem_singleton] at hX
    rcases hX with hX | rfl
    · exact par_use (by simp [pcO]) (getData_some hd') X hX
    · exact .inl (by simp [pcO])
  | gParUp x b fs y v p h hd' hp' hs e =>
    refine .same (incS_same e).1 (fun X hX => ?_) (fun X hX => ?_)
    · by_cases hXp : X = .node p
      · subst hXp
        exact .lnk (Y := .node x) (by simp [pcO]) (.par (getData_some hd') hp')
      · refine .old ?_
        simp only [pcO, frO, entsO, List.flatMap_cons, List.flatMap_nil, List.append_nil, List.nil_append, List.mem_append, List.mem_cons] at hX ⊢
        grind
    · simp only [pcHead, pcBody, List.mem_append, List.mem_singleton] at hX
      rcases hX with hX | rfl
      · exact par_use (by simp [pcO]) (getData_some hd') X hX
      · exact .inl (by simp [pcO])
  | gCasWin x b og fs y v hd' hb => 
    exact .gnew (getData_some hd') (by simp [pcO]) (fun h hh => by simp [pcO, hh]) ⟨.rmw (.box x) true true, by simp [pcAcc, hb], ⟨_, rfl⟩⟩
      (fun X hX => by simp only [pcO, entsO, List.flatMap_nil, List.nil_append, List.append_nil, List.mem_cons, List.mem_append] at hX ⊢; grind) (by puse)
  | gCasLost x b og fs y v hd' hb =>
    refine .idle (fun X hX => ?_) (by puse)
    simp only [pcO, entsO, List.flatMap_nil, List.nil_append, List.append_nil, List.mem_cons] at hX
    rcases hX with rfl | rfl | hX
    · exact .old (by simp [pcO])
    · exact .box (by simp [pcO]) (getData_some hd') ⟨.load (.box x) true, by simp [pcAcc, hb], .inl rfl⟩
    · exact .old (by simp only [pcO, List.mem_cons]; exact .inr (.inr hX))
  | gm0 d g v hv hc => exact .gate hv rfl (by pold) (by puse)
  | gm2 d g v hv hc => exact .gate hv rfl (by pold) (by puse)
  | gmOpenC d g ok v hv => exact .gate hv rfl (by pold) (by puse)
  | gmOpenD d g ok v hv => exact .gate hv rfl (by pold) (by puse)
  | im0 d g v hv hc => exact .gate hv rfl (by pold) (by puse)
  | imOpen d g v hv => exact .gate hv rfl (by pold) (by puse)
  | imGate g r acc v hv => exact .gate hv rfl (by pold) (by puse)
  | im2No d g v hd' hc =>
    refine .idle (by pold) (fun X hX => ?_)
    simp only [pcHead, pcBody, List.append_nil, List.mem_cons] at hX
    rcases hX with rfl | hX
    · exact .inl (by simp [pcO])
    · exact par_use (by simp [pcO]) (getData_some hd') X hX
  | im2 d g v hd' hc =>
    have hv := getData_some hd'
    refine .gone (x := d) rfl rfl (by simp [pcO]) (fun X hX => ?_) (fun X hX => ?_)
    · simp only [pcO, entsO, List.flatMap_nil, List.nil_append, List.append_nil, List.mem_cons, List.mem_append] at hX
      rcases hX with rfl | hX | hX
      · exact .old (by simp [pcO])
      · exact reg_got (x := d) (by simp [pcO]) hv rfl X hX
      · exact kids_got hc hv X hX
    · simp only [pcHead, pcBody, List.append_nil, List.mem_cons] at hX
      rcases hX with rfl | hX
      · exact .inl (by simp [pcO])
      · exact par_use (by simp [pcO]) hv X hX
  | imKid c todo g r acc v hd' hc =>
    have hv := getData_some hd'
    have hcU : Obj.node c ∈ pcO (.imFg (.kid c :: todo) g r acc : Pc α) := by simp [pcO, fgO]
    refine .gone (x := c) rfl rfl hcU (fun X hX => ?_) (fun X hX => ?_)
    · simp only [pcO, entsO, List.flatMap_nil, List.nil_append, List.append_nil, List.mem_cons, List.mem_append, List.flatMap_append,
        List.flatMap_cons] at hX
      rcases hX with rfl | hX | hX | hX | hX
      · exact .old (by simp [pcO])
      · exact .old (by simp [pcO, hX])
      · exact kids_got hc hv X hX
      · exact reg_got (r := ⟨v.buf, v.off, 0, v.alloc⟩) hcU hv rfl X hX
      · exact .old (by simp only [pcO, List.flatMap_cons, List.mem_cons, List.mem_append]; exact .inr (.inr (.inr hX)))
    · simp only [pcHead, pcBody, List.append_nil, List.mem_cons] at hX
      rcases hX with rfl | hX
      · exact .inl hcU
      · exact par_use hcU hv X hX
  | imKidNo c todo g r acc v hd' hc =>
    have hv := getData_some hd'
    have hcU : Obj.node c ∈ pcO (.imFg (.kid c :: todo) g r acc : Pc α) := by simp [pcO, fgO]
    refine .idle (fun X hX => .old ?_) (fun X hX => ?_)
    · simp only [pcO, entsO, fgO, ataskO, taskO, List.flatMap_nil, List.nil_append, List.append_nil, List.mem_cons, List.mem_append, List.flatMap_append,
        List.flatMap_cons] at hX ⊢
      grind
    · simp only [pcHead, pcBody, List.append_nil, List.mem_cons] at hX
      rcases hX with rfl | hX
      · exact .inl hcU
      · exact par_use hcU hv X hX
  | imVal w todo g r acc =>
    refine .idle (fun X hX => .old ?_) (by simp [pcHead, pcBody])
    simp only [pcO, entsO, fgO, ataskO, taskO, List.flatMap_nil, List.nil_append, List.append_nil, List.mem_cons, List.mem_append, List.flatMap_append,
      List.flatMap_cons] at hX ⊢
    grind
  | dg1 d g v hv => exact .counts a.gS _ (by pold) (by puse)
  | up d h hs e => exact .same (incS_same e).1 (by pold) (by puse)
  | wc d g hg => exact .counts a.gS _ (by pold) (by puse)
  | wd g hg =>
    refine .counts a.gS _ (by pold) (fun X hX => ?_)
    simp only [pcHead, pcBody, List.append_nil, List.mem_cons, List.not_mem_nil, or_false] at hX
    rcases hX with rfl | rfl
    · exact .inr ⟨.guard g, by simp [pcO], .gof (by simpa [Arena.made] using hm (.guard g) (by simp [pcO]))⟩
    · exact .inl (by simp [pcO])
  | _ => exact .idle (by pold) (by puse)

end
end Verif.Arc
