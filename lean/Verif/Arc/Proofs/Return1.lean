import Verif.Arc.Return
import Verif.Arc.Proofs.Weak2
import Verif.Arc.Proofs.Pub5
/-!
# What a step does to memory blocks, and who holds them
-/

set_option linter.unusedSimpArgs false

namespace Verif.Arc
open Verif.Spec (Side Slot Family Rng End)
open Verif.Rc
variable {α : Type}

/-! ## Giving up -/

/-- Only the last `Arc` of a value acquires its counter; then it gives up two `Weak`s. -/
theorem dropAcc_out {a : Arena α} {x y : Nat} (h : ∃ r ∈ dropAcc a x, r.acquires (.cnt y)) : y = x ∧ a.b.strong x = 1 := by
  obtain ⟨r, h1, h2⟩ := h
  simp only [dropAcc] at h1
  split at h1
  · next h3 =>
    refine ⟨?_, h3⟩
    split at h1
    · simp only [List.mem_cons, List.mem_append, List.mem_map, List.not_mem_nil, or_false] at h1
      rcases h1 with rfl | ((rfl | rfl) | ⟨p, _, rfl⟩) | rfl <;> rcases h2 with h | ⟨_, h⟩ <;> cases h
      rfl
    · rw [List.mem_singleton] at h1; subst h1
      rcases h2 with h | ⟨_, h⟩ <;> cases h
      rfl
  · rw [List.mem_singleton] at h1; subst h1
    rcases h2 with h | ⟨_, h⟩ <;> cases h

theorem unwrapAcc_out {a : Arena α} {x y : Nat} (h : ∃ r ∈ unwrapAcc a x, r.acquires (.cnt y)) : y = x ∧ a.b.strong x = 1 := by
  obtain ⟨r, h1, h2⟩ := h
  simp only [unwrapAcc] at h1
  split at h1
  · next h3 =>
    refine ⟨?_, h3⟩
    simp only [List.mem_cons, List.mem_append, List.mem_map, List.not_mem_nil, or_false] at h1
    rcases h1 with ((rfl | rfl | rfl) | ⟨p, _, rfl⟩) | rfl <;> rcases h2 with h | ⟨_, h⟩ <;> cases h
    rfl
  · cases h1

theorem upAcc_out {a : Arena α} {w : Bool} {x y : Nat} : ¬ ∃ r ∈ upAcc ⟨false, false, false, w⟩ a x, r.acquires (.cnt y) := by
  rintro ⟨r, h1, h2⟩
  simp only [upAcc] at h1
  split at h1 <;> rw [List.mem_singleton] at h1 <;> subst h1 <;> rcases h2 with h | ⟨_, h⟩ <;> cases h

theorem lastOut_one {a : Arena α} {x : Nat} (h : a.b.strong x = 1) : lastOut a x = x :: (a.par x).toList := if_pos h

theorem ataskAcc_out {a : Arena α} {t : ATask} {y : Nat} (h : ∃ r ∈ ataskAcc a t, r.acquires (.cnt y)) :
    (ataskBlocks a t).out = y :: (a.par y).toList := by
  cases t with
  | base t =>
    cases t with
    | dropS x => obtain ⟨rfl, h1⟩ := dropAcc_out h; exact lastOut_one h1
    | _ => obtain ⟨r, h1, _⟩ := h; cases h1
  | slice d g => obtain ⟨rfl, h1⟩ := dropAcc_out h; exact lastOut_one h1
  | guard g =>
    obtain ⟨r, h1, h2⟩ := h
    simp only [ataskAcc, dropGAcc] at h1
    split at h1 <;> simp at h1
    · rcases h1 with rfl | rfl <;> rcases h2 with h | ⟨_, h⟩ <;> cases h
    · subst h1; rcases h2 with h | ⟨_, h⟩ <;> cases h

theorem pcAcc_out {a : Arena α} {w : Bool} {on : Option Nat} {pc : Pc α} {y : Nat} (h : ∃ r ∈ pcAcc ⟨false, false, false, w⟩ a pc, r.acquires (.cnt y)) :
    (pcBlocks a on pc).out = y :: (a.par y).toList := by
  have no : ∀ {l : List Acc}, (∀ r ∈ l, ∀ y, r ≠ .load (.cnt y) true ∧ ∀ b, r ≠ .rmw (.cnt y) true b) → ¬ ∃ r ∈ l, r.acquires (.cnt y) := by
    rintro l hl ⟨r, h1, h2⟩
    rcases h2 with h | ⟨b, h⟩
    · exact (hl r h1 y).1 h
    · exact (hl r h1 y).2 b h
  cases pc with
  | im2 d g => obtain ⟨rfl, h1⟩ := unwrapAcc_out h; exact lastOut_one h1
  | imFg todo g r acc =>
    cases todo with
    | nil => exact absurd h (no (by simp [pcAcc]))
    | cons f todo =>
      cases f with
      | kid c => obtain ⟨rfl, h1⟩ := unwrapAcc_out h; exact lastOut_one h1
      | val w => exact absurd h (no (by simp [pcAcc]))
  | up d =>
    cases d with
    | none => exact absurd h (no (by simp [pcAcc]))
    | some d => exact absurd h upAcc_out
  | gPar x b fs y =>
    simp only [pcAcc] at h
    split at h
    · exact absurd h (no (by simp))
    · exact absurd h upAcc_out
  | wd g => cases g <;> exact absurd h (no (by simp [pcAcc]))
  | gTry x b pend fs y =>
    simp only [pcAcc] at h
    split at h
    · exact absurd h (no (by simp))
    · split at h <;> exact absurd h (no (by simp))
  | gCas x b og fs y => simp only [pcAcc] at h; split at h <;> exact absurd h (no (by simp))
  | cs d s =>
    simp only [pcAcc] at h
    split at h
    · split at h <;> exact absurd h (no (by simp))
    · exact absurd h (no (by simp))
  | csCas d s r =>
    simp only [pcAcc] at h
    split at h
    · split at h <;> exact absurd h (no (by simp))
    · exact absurd h (no (by simp))
  | _ => exact absurd h (no (by simp [pcAcc]))

section
variable {o : Ords} {v v' : VConf α} {i e : Nat} {cl cl' : Call α} {push : List Ent} {U R N : List AT} {V : View}

/-- A value disappears: its `Arc`s give up the `Weak` they hold together, and the one to its parent. -/
theorem VStp.killed (S : VStp o v v' i cl cl' push U R N V) (B : v.c.BI) {y : Nat} {n : Node} (hn : v.c.a.b.sk.node y = some n)
    (hk : v'.c.a.b.sk.node y = none) : (callBlocks v.c.a cl).out = y :: (v.c.a.par y).toList := by
  have hI := B.heap.perm S.p
  rcases S.how with ⟨t, ts, new, ht, e, rfl, rfl, rfl, rfl⟩ | ⟨n, ht, hs, rfl, rfl, rfl, rfl⟩
  · have := (mv_task hI ((B.calls i cl S.hi).2 t (by simp [ht])) e).kill y _ hn hk
    simp only [callBlocks, ht]
    exact ataskAcc_out this.2.2.1
  · have := (mv_pc (o := ⟨false, false, false, true⟩) hI (B.calls i cl S.hi).1 hs).kill y _ hn hk
    simp only [callBlocks, ht]
    exact pcAcc_out this.2.2.1

/-! ## Holding -/

/-- What a call holds it keeps, gives up, or puts into a value it has made. -/
theorem VStp.held (S : VStp o v v' i cl cl' push U R N V) (B : v.c.BI) (ev : AEvo v.c.a v'.c.a) {x : Nat} (hx : x ∈ callHold v.c.a cl) :
    x ∈ callHold v'.c.a cl' ∨ x ∈ (callBlocks v.c.a cl).out ∨
      ∃ y n, v'.c.a.b.sk.node y = some n ∧ v'.c.a.par y = some x ∧ y ∈ aS (N ++ entsT push) := by
  rcases S.how with ⟨t, ts, new, ht, e, rfl, rfl, rfl, rfl⟩ | ⟨n, ht, hs, rfl, rfl, rfl, rfl⟩
  · left
    have := callHold_mono B.par ev (B.calls i cl S.hi).1
    show x ∈ callHold v'.c.a cl
    rw [this]; exact hx
  · simp only [callBlocks, ht, callHold] at hx ⊢
    generalize cl.pc = pc at hx hs
    generalize v'.c.a = a' at hs
    cases hs
    case csWin d s r v h1 c h2 hd hk e1 e2 =>
      refine .inr (.inr ?_)
      simp only [pcHold, List.mem_singleton] at hx
      subst hx
      have hlt := B.heap.good.ledger.lt (getData_some hd)
      cases e1
      obtain ⟨_, rfl⟩ := incS_some e2
      refine ⟨_, .data ⟨r.buf, r.off, r.len, r.alloc, noKids⟩, ?_, upd_same .., by simp [pcT, aS]⟩
      show upd (upd _ _ _) x _ _ = _
      rw [upd_ne _ _ (by omega), upd_same]
    case csLost d s r v c hd hk =>
      simp only [pcHold, List.mem_singleton] at hx
      subst hx
      left
      simp [pcHold, B.par.kid _ v s c (getData_some hd) hk]
    case csLose => exact .inr (.inl hx)
    case wdN => exact .inr (.inl hx)
    case wd => exact .inr (.inl hx)
    all_goals cases hx

/-! ## Accessing -/

/-- How a step gets to a block it accesses. -/
inductive Via (c : Conf α) (cl : Call α) (U : List AT) (x : Nat) : Prop
  | mine (h : x ∈ aS U)
  | par {y : Nat} (h : y ∈ aS U) (hp : c.a.par y = some x)
  | bor {d g : Nat} (h : cl.bh c = some (.strong d g)) (hx : x = d)
  | kid {d g : Nat} {n : Node} (h : cl.bh c = some (.strong d g)) (hn : c.a.b.sk.node d = some n) (hx : x ∈ n.srefs)
  | weak {g : Option Nat} (h : cl.bh c = some (.weak (some x) g))
  | out (h : x ∈ (callBlocks c.a cl).out)

theorem bodyN_pc {a a' : Arena α} {pc : Pc α} {n : Next α} {bh : Option Handle} (hp : pcOK a bh pc) (hs : PStep a pc a' n)
    {x : Nat} (hX : .node x ∈ pcBody pc) : Has (pcT pc) bh (.node x) := by
  cases hs <;> simp only [pcBody, List.not_mem_nil, List.mem_singleton, Obj.node.injEq, reduceCtorEq] at hX <;> subst hX
  case csSame => obtain ⟨g, hp⟩ := hp; exact .bnode hp
  case csKid => obtain ⟨g, hp⟩ := hp; exact .bnode hp
  case csNo => obtain ⟨g, hp⟩ := hp; exact .bnode hp
  case csNew => obtain ⟨g, w, hp, _⟩ := hp; exact .bnode hp
  case csWin => obtain ⟨g, w, hp, _⟩ := hp; exact .bnode hp
  case csLost => obtain ⟨g, w, hp, _⟩ := hp; exact .bnode hp
  all_goals exact .node (ref_mem_aS (by simpa [pcT] using Chain.held hp))

theorem VStp.via (S : VStp o v v' i cl cl' push U R N V) (B : v.c.BI)
    (hw : ∀ g, cl.pc = .wd (some g) → cl.on = some (v.c.a.gOf g)) {x : Nat} (hx : .node x ∈ callHead v.c.a cl ++ callBody cl) :
    Via v.c cl U x := by
  rcases List.mem_append.1 hx with hx | hx
  · rcases S.how with ⟨t, ts, new, ht, e, rfl, rfl, rfl, rfl⟩ | ⟨n, ht, hs, rfl, rfl, rfl, rfl⟩
    · simp only [callHead, ht] at hx
      have hd : ∀ y, .node x ∈ dropHead v.c.a y → x = y ∨ x ∈ lastOut v.c.a y := by
        intro y hx
        simp only [dropHead, List.mem_cons, Obj.node.injEq] at hx
        rcases hx with h | hx
        · exact .inl h
        · right
          split at hx
          · split at hx
            · next h1 =>
              obtain ⟨p, h2, h3⟩ := List.mem_map.1 hx
              cases h3
              rw [lastOut_one h1]; exact List.mem_cons_of_mem _ h2
            · cases hx
          · cases hx
      cases t with
      | base t =>
        cases t with
        | dropS y =>
          rcases hd y hx with rfl | h
          · exact .mine (by simp [ataskT, taskT, aS])
          · exact .out (by simpa only [callBlocks, ht, ataskBlocks] using h)
        | _ => cases hx
      | slice d g =>
        rcases hd d hx with rfl | h
        · exact .mine (by simp [ataskT, taskT, aS])
        · exact .out (by simpa only [callBlocks, ht, ataskBlocks] using h)
      | guard g => simp [ataskHead] at hx
    · simp only [callHead, ht] at hx
      have hp := (B.calls i cl S.hi).1
      have hb : ∀ pc, cl.pc = pc → (callBlocks v.c.a cl).out = (pcBlocks v.c.a cl.on pc).out := fun pc h => by simp only [callBlocks, ht, h]
      generalize hpc : cl.pc = pc at hx hp hs hw
      generalize v'.c.a = a' at hs
      have kid : ∀ {c}, KidOf v.c.a (cl.bh v.c) c → Via v.c cl (pcT pc) c := by
        rintro c ⟨d, g, s, u, h1, h2, h3⟩
        exact .kid h1 h2 (by cases s <;> simp [Node.srefs, h3])
      cases pc with
      | split s r => simp only [pcHead, List.mem_map, Option.mem_toList] at hx; obtain ⟨y, h1, h2⟩ := hx; cases h2; exact .mine (by simp [pcT, aS, AT.S, h1])
      | cut e n r => simp only [pcHead, List.mem_map, Option.mem_toList] at hx; obtain ⟨y, h1, h2⟩ := hx; cases h2; exact .mine (by simp [pcT, aS, AT.S, h1])
      | cl1 d g => simp only [pcHead, List.mem_singleton, Obj.node.injEq] at hx; exact .bor hp hx
      | cs d s => obtain ⟨g, hp⟩ := hp; simp only [pcHead, List.mem_singleton, Obj.node.injEq] at hx; exact .bor hp hx
      | csInc c => simp only [pcHead, List.mem_singleton, Obj.node.injEq] at hx; subst hx; exact kid hp
      | csNew d s =>
        obtain ⟨g, u, hp, hu, _⟩ := hp
        simp only [pcHead, List.mem_cons, Obj.node.injEq] at hx
        rcases hx with h | hx
        · exact .bor hp h
        · split at hx
          · next u' hg =>
            have := getData_some hg
            rw [hu] at this; cases this
            obtain ⟨y, h1, h2⟩ := List.mem_map.1 hx
            cases h2
            exact .kid hp hu (by simp only [Node.srefs]; exact List.mem_append_right _ h1)
          · cases hx
      | csLose c r =>
        simp only [pcHead, List.mem_cons, Obj.node.injEq, List.mem_map] at hx
        rcases hx with rfl | ⟨p, h1, rfl⟩
        · exact kid hp
        · exact .out (by rw [hb _ hpc]; exact h1)
      | gPar y b fs z =>
        simp only [pcHead, List.mem_map, Option.mem_toList] at hx
        obtain ⟨p, h1, h2⟩ := hx; cases h2
        exact .par (ref_mem_aS (by simpa [pcT] using Chain.held hp)) h1
      | gm4 d g => simp only [pcHead, List.mem_singleton, Obj.node.injEq] at hx; subst hx; exact .mine (by simp [pcT, aS])
      | im2 d g =>
        simp only [pcHead, List.mem_cons, Obj.node.injEq, List.mem_map, Option.mem_toList] at hx
        rcases hx with rfl | ⟨p, h1, rfl⟩
        · exact .mine (by simp [pcT, aS])
        · exact .par (y := d) (by simp [pcT, aS]) h1
      | imFg todo g r acc =>
        cases todo with
        | nil => cases hx
        | cons f todo =>
          cases f with
          | val w => cases hx
          | kid c =>
            simp only [pcHead, List.mem_cons, Obj.node.injEq, List.mem_map, Option.mem_toList] at hx
            have hc : c ∈ aS (pcT (α := α) (.imFg (.kid c :: todo) g r acc)) := ref_mem_aS (by simp [pcT, fgT])
            rcases hx with rfl | ⟨p, h1, rfl⟩
            · exact .mine hc
            · exact .par hc h1
      | dg1 d g => simp only [pcHead, List.mem_cons, Obj.node.injEq, reduceCtorEq, List.not_mem_nil, or_false] at hx; exact .bor hp hx
      | up d =>
        obtain ⟨g, hp⟩ := hp
        simp only [pcHead, List.mem_map, Option.mem_toList] at hx
        obtain ⟨y, h1, h2⟩ := hx; cases h2; subst h1
        exact .weak hp
      | wc d g =>
        simp only [pcHead, List.mem_append, List.mem_map, Option.mem_toList, reduceCtorEq, and_false, exists_false, or_false] at hx
        obtain ⟨y, h1, h2⟩ := hx; cases h2; subst h1
        exact .weak hp
      | wd g =>
        cases g with
        | none => cases hx
        | some g =>
          simp only [pcHead, List.mem_cons, Obj.node.injEq, reduceCtorEq, List.not_mem_nil, or_false] at hx
          refine .out ?_
          rw [hb _ hpc]
          simp [pcBlocks, hw g rfl, hx]
      | _ => simp [pcHead] at hx
  · rcases S.how with ⟨t, ts, new, ht, e, rfl, rfl, rfl, rfl⟩ | ⟨n, ht, hs, rfl, rfl, rfl, rfl⟩
    · simp [callBody, ht] at hx
    · simp only [callBody, ht] at hx
      cases bodyN_pc (B.calls i cl S.hi).1 hs hx with
      | node h => exact .mine h
      | bnode h => exact .bor h rfl

/-! ## Making -/

theorem mutFromBox_live {h h' : Heap α} {xs : List α} {r : Reg} (e : mutFromBox h xs = (h', r)) {x : Nat} (h1 : h.sk.next ≤ x) (h2 : x < h'.sk.next) :
    ∃ m, h'.sk.node x = some m := by
  simp only [mutFromBox] at e
  split at e
  · cases e
    exact absurd h2 (Nat.not_lt.2 h1)
  · cases e
    have h2 : x < h.sk.next + 1 := h2
    have : x = h.sk.next := by omega
    subst this
    exact ⟨_, upd_same ..⟩

/-- What is allocated in a step is there after it. -/
theorem PStep.fresh {a a' : Arena α} {pc : Pc α} {n : Next α} {T : List AT} (I : HInv a.b T) (hs : PStep a pc a' n) {x : Nat} (h1 : a.b.sk.next ≤ x)
    (h2 : x < a'.b.sk.next) : ∃ m, a'.b.sk.node x = some m := by
  have root : ∀ {a0 a1 : Arena α} {r : Reg} {d : Nat}, a0.root r = (a1, d) → a0.b.sk.next ≤ x → x < a1.b.sk.next → ∃ m, a1.b.sk.node x = some m := by
    intro a0 a1 r d e h1 h2
    cases e
    have h2 : x < a0.b.sk.next + 1 := h2
    have : x = a0.b.sk.next := by omega
    subst this
    exact ⟨_, upd_same ..⟩
  have sm : ∀ {h : Heap α}, h.sk = a.b.sk → x < h.sk.next → ∃ m, h.sk.node x = some m := fun e h => by rw [e] at h; omega
  cases hs
  case new0 xs hl r d hr e => exact root e h1 h2
  case new1 xs hl r h1' al d eh hr e =>
    have e3 : h1'.sk.next = a.b.sk.next + 1 := by cases eh; rfl
    by_cases h3 : x = a.b.sk.next
    · obtain ⟨rfl, h4, _⟩ := root_eq' e
      refine ⟨.alloc (newBuf a.b xs).2, ?_⟩
      rw [h4]
      show upd h1'.sk.node h1'.sk.next _ x = _
      rw [upd_ne _ _ (by omega)]
      cases eh
      subst h3
      exact upd_same ..
    · exact root e (by show h1'.sk.next ≤ x; omega) h2
  case mutNew xs h r e => exact mutFromBox_live e h1 h2
  case immut r d e => exact root e h1 h2
  case split e => exact sm (regSplit_same e) h2
  case nxt e => exact sm (iterNext_sk e) h2
  case cutF e => exact sm (iterSplit_same e).1 h2
  case cutB e => exact sm (iterSplit_same e).1 h2
  case cl1 e => exact sm (incS_same e).1 h2
  case csSame e => exact sm (incS_same e).1 h2
  case csInc e => exact sm (incS_same e).1 h2
  case csLose e => exact sm (incS_same e).1 h2
  case gParUp e => exact sm (incS_same e).1 h2
  case up e => exact sm (incS_same e).1 h2
  case csNew e => exact sm (incSOpt_same e).1 h2
  case csWin d s r v h1' c h2' hd hk e1 e2 =>
    have hlt := I.good.ledger.lt (getData_some hd)
    cases e1
    obtain ⟨_, rfl⟩ := incS_some e2
    have h2 : x < a.b.sk.next + 1 := h2
    have : x = a.b.sk.next := by omega
    subst this
    refine ⟨.data ⟨r.buf, r.off, r.len, r.alloc, noKids⟩, ?_⟩
    show upd (upd _ _ _) d _ _ = _
    rw [upd_ne _ _ (by omega), upd_same]
  all_goals exact absurd h2 (Nat.not_lt.2 h1)

theorem VStp.make (S : VStp o v v' i cl cl' push U R N V) (B : v.c.BI) (B' : v'.c.BI) {x : Nat} (h1 : v.c.a.b.sk.next ≤ x) (h2 : x < v'.c.a.b.sk.next)
    (he : e ∈ V ∨ e = v.log.length + 1) : (∃ m, v'.c.a.b.sk.node x = some m) ∧ Kn v' e x := by
  have hm : ∃ m, v'.c.a.b.sk.node x = some m := by
    rcases S.how with ⟨t, ts, new, ht, e, rfl, rfl, rfl, rfl⟩ | ⟨n, ht, hs, rfl, rfl, rfl, rfl⟩
    · have := (task_led B.heap ((B.calls i cl S.hi).2 t (by simp [ht])) e 0).1
      omega
    · exact hs.fresh B.heap h1 h2
  refine ⟨hm, ?_⟩
  obtain ⟨m, hm⟩ := hm
  have h0 : v.c.a.b.sk.node x = none := B.heap.good.ledger.fresh x h1
  rcases B'.heap.only x m hm with hk | hk
  · obtain ⟨u, rfl⟩ := data_of_kind hk
    exact S.hold (S.mv.newData x u h0 hm).1 he
  · cases m <;> simp [Node.kind] at hk
    exact S.holds (S.mv.newAlloc x _ h0 hm).2 he

end
end Verif.Arc
