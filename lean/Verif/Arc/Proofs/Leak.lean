import Verif.Arc.Leak
import Verif.Arc.Proofs.Counts
import Verif.Arc.Proofs.Starve
import Verif.Rc.Proofs.Bounds
/-!
# The boxes of guard pointers
-/

namespace Verif.Arc
open Verif.Spec (Side Slot Family Rng End)
open Verif.Rc
variable {α : Type}

/-- The records in a heap. -/
def recs (k : Skel) : Nat := ((List.range k.next).filter fun x => decide (k.kind x = .data)).length

theorem recs_same {k k' : Skel} (h : k'.next = k.next) (hk : ∀ x, x < k.next → k'.kind x = k.kind x) : recs k' = recs k := by
  unfold recs
  rw [h]
  congr 1
  refine List.filter_congr fun x hx => ?_
  rw [hk x (List.mem_range.1 hx)]

theorem recs_one {k k' : Skel} (h : k'.next = k.next + 1) (hk : ∀ x, x < k.next → k'.kind x = k.kind x) :
    recs k' = recs k + if k'.kind k.next = .data then 1 else 0 := by
  unfold recs
  rw [h, List.range_succ, List.filter_append, List.length_append]
  congr 1
  · congr 1
    refine List.filter_congr fun x hx => ?_
    rw [hk x (List.mem_range.1 hx)]
  · simp only [List.filter_cons, List.filter_nil]
    split <;> simp_all

/-- A step of a call makes one box for each record and each guard it makes. -/
theorem boxes_pc {a a' : Arena α} {pc : Pc α} {n : Next α} (hs : PStep a pc a' n) :
    a'.nbox + (recs a.b.sk + a.ng) = a.nbox + (recs a'.b.sk + a'.ng) := by
  have root : ∀ {a0 : Arena α} {r : Reg} {d : Nat}, a0.root r = (a', d) → a0.nbox = a.nbox → a0.ng = a.ng → recs a0.b.sk = recs a.b.sk →
      a'.nbox + (recs a.b.sk + a.ng) = a.nbox + (recs a'.b.sk + a'.ng) := by
    intro a0 r d e h1 h2 h3
    obtain ⟨rfl, e2, e3, _, _, e6, _, _, _, _, _, e12⟩ := root_eq e
    have := recs_one e2 fun x hx => by rw [e12, upd_ne _ _ (by omega)]
    rw [e12, upd_same, if_pos rfl] at this
    omega
  have alloc : ∀ {h h' : Heap α} {b al : Nat} {l : Lab}, h.rcNew (.alloc b) l = (h', al) → recs h'.sk = recs h.sk := by
    intro h h' b al l e
    cases e
    rw [recs_one (k := h.sk) rfl fun x hx => upd_ne _ _ (by omega)]
    show _ + (if upd h.sk.kind h.sk.next Kind.alloc h.sk.next = .data then 1 else 0) = _
    rw [upd_same]; rfl
  cases hs
  case new0 xs hl r d hr e => exact root e rfl rfl rfl
  case new1 xs hl r h1' al d eh hr e => exact root e rfl rfl ((alloc eh).trans rfl)
  case immut r d e => exact root e rfl rfl rfl
  case mutNew xs h r e =>
    have : recs h.sk = recs a.b.sk := by
      simp only [mutFromBox] at e
      split at e
      · cases e; rfl
      · cases e; exact (alloc (h := (newBuf a.b xs).1) rfl).trans rfl
    simp only [Arena.withB, this]
  case split s r h new rest e => simp only [Arena.withB, regSplitOff_k e]
  case nxt en r h o r' ts re hre e => simp only [Arena.withB, iterNext_k e]
  case cutF n r h new rest hn e => simp only [Arena.withB, iterSplit_k e]
  case cutB n r h new rest hn e => simp only [Arena.withB, iterSplit_k e]
  case cl1 d g h e => obtain ⟨_, rfl⟩ := incS_some e; rfl
  case csSame d s v h hd hs e => obtain ⟨_, rfl⟩ := incS_some e; rfl
  case csInc c h e => obtain ⟨_, rfl⟩ := incS_some e; rfl
  case csLose c r h e => obtain ⟨_, rfl⟩ := incS_some e; rfl
  case gParUp x b fs y v p h hd hp hs e => obtain ⟨_, rfl⟩ := incS_some e; rfl
  case up d h hs e => obtain ⟨_, rfl⟩ := incS_some e; rfl
  case csNew d s v h hd e =>
    have : h.sk = a.b.sk := by
      cases ho : (if v.subLen s = 0 then none else v.alloc) with
      | none => rw [ho] at e; cases e; rfl
      | some x => rw [ho] at e; obtain ⟨_, rfl⟩ := incS_some e; rfl
    simp only [Arena.withB, this]
  case csWin d s r v h1' c h2' hd hk e1 e2 =>
    cases e1
    obtain ⟨_, rfl⟩ := incS_some e2
    have key : ∀ a2 : Arena α, a2.b.sk.next = a.b.sk.next + 1 → a2.b.sk.kind = upd a.b.sk.kind a.b.sk.next .data → a2.nbox = a.nbox + 1 →
        a2.ng = a.ng → a2.nbox + (recs a.b.sk + a.ng) = a.nbox + (recs a2.b.sk + a2.ng) := by
      intro a2 h1 h2 h3 h4
      have := recs_one h1 fun x hx => by rw [h2, upd_ne _ _ (by omega)]
      rw [h2, upd_same, if_pos rfl] at this
      omega
    exact key _ rfl rfl rfl rfl
  case gCasWin x b og fs y v hd hb =>
    show a.nbox + 1 + (recs a.b.sk + a.ng) = a.nbox + (recs a.b.sk + (a.ng + 1))
    omega
  all_goals rfl

/-- Where calls are that do not make guards. -/
def Pc.still : Pc α → Bool
  | .new _ | .immut _ | .wait .. | .cs .. | .csInc _ | .csNew .. | .csCas .. | .csLose .. | .gLoad .. | .gTry .. | .gPar .. | .gCas .. | .gRet .. | .up _ => false
  | _ => true

theorem still_pc {a a' : Arena α} {pc : Pc α} {n : Next α} (hs : PStep a pc a' n) (h : pc.still = true) :
    n.pc.still = true ∧ a'.nbox = a.nbox := by
  cases hs <;> first | exact ⟨rfl, rfl⟩ | cases h

theorem one_pc {a a' : Arena α} {pc : Pc α} {n : Next α} (hs : PStep a pc a' n) (h : a'.nbox ≠ a.nbox) :
    a'.nbox = a.nbox + 1 ∧ pc.isDone = false := by
  cases hs
  case new0 xs hl r d hr e => exact ⟨(root_eq e).2.2.1, rfl⟩
  case new1 xs hl r h1' al d eh hr e => exact ⟨(root_eq e).2.2.1, rfl⟩
  case immut r d e => exact ⟨(root_eq e).2.2.1, rfl⟩
  case csWin => exact ⟨rfl, rfl⟩
  case gCasWin => exact ⟨rfl, rfl⟩
  all_goals exact absurd rfl h

theorem nbox_task {a a' : Arena α} {t : ATask} {ts : List ATask} (e : ataskStep a t = .ok (a', ts)) : a'.nbox = a.nbox ∧ a'.ng = a.ng := by
  cases t with
  | base t => obtain ⟨⟨h', ts'⟩, e1, e2⟩ := bind_ok e; cases pure_ok e2; exact ⟨rfl, rfl⟩
  | slice d g => obtain ⟨⟨h', ts'⟩, e1, e2⟩ := bind_ok e; cases pure_ok e2; exact ⟨rfl, rfl⟩
  | guard g =>
    simp only [ataskStep, Arena.dropG] at e
    split at e
    · cases e
    · split at e
      · cases e; exact ⟨rfl, rfl⟩
      · split at e <;> cases e
        exact ⟨rfl, rfl⟩

section
variable {P : Rules α} {zst : Bool} {c c' : Conf α}

/-- Calls that are not to make guards do not. -/
def Conf.Still (c : Conf α) : Prop := ∀ (i : Nat) cl, c.calls[i]? = some cl → cl.op.guarding = false → cl.pc.still = true

theorem Conf.Still.step {i : Nat} (S : c.Still) (e : c.step i = .ok c') : c'.Still := by
  intro j cl hj ho
  cases CStep.of e with
  | none hi => exact S j cl hj ho
  | task cl1 t ts a' new hi ht e1 =>
    have hj : (c.calls.set i _)[j]? = some cl := hj
    rw [List.getElem?_set] at hj
    split at hj
    · next h =>
      split at hj <;> cases hj
      exact S i cl1 hi ho
    · exact S j cl hj ho
  | pc cl1 a' n hi ht e1 =>
    have hj : (c.calls.set i _)[j]? = some cl := hj
    rw [List.getElem?_set] at hj
    split at hj
    · next h =>
      split at hj <;> cases hj
      exact (still_pc (PStep.of e1) (S i cl1 hi ho)).1
    · exact S j cl hj ho

theorem Conf.Still.start {op : Op α} (S : c.Still) (e : c.start op = some c') : c'.Still := by
  have app : ∀ {cl0 : Call α}, c'.calls = c.calls ++ [cl0] → (cl0.op.guarding = false → cl0.pc.still = true) → c'.Still := by
    intro cl0 h1 h2 j cl hj ho
    rw [h1] at hj
    rcases List.mem_append.1 (List.mem_of_getElem? hj) with h | h
    · obtain ⟨i, hi⟩ := List.getElem?_of_mem h
      exact S i cl hi ho
    · rw [List.mem_singleton.1 h] at ho ⊢; exact h2 ho
  cases SStep.of e
  case weakNew => exact S
  case endMut => exact S
  all_goals first
    | exact app rfl fun _ => rfl
    | exact app rfl fun h => by cases h

theorem Conf.PReach.Still (h : Conf.PReach P zst c) : c.Still := by
  induction h with
  | init => intro i cl hi; cases hi
  | run h i e ih => exact ih.step e
  | start h op hp e ih => exact ih.start e
  | write h k en j x hk hw e ih =>
    rcases Conf.write_cases e with rfl | ⟨_, _, rfl⟩
    · exact ih
    · exact ih
  | panic h i e ih =>
    intro j cl hj ho
    simp only [Conf.panic] at e
    split at e
    · next cl0 hi =>
      split at e
      · cases e
        have hj : (List.set _ i _)[j]? = some cl := hj
        rw [List.getElem?_set] at hj
        split at hj
        · split at hj <;> cases hj
          rfl
        · exact ih j cl hj ho
      · cases e
    · cases e

/-- Nodes are not made or turned into something else. -/
def Fixed (k k' : Skel) : Prop := k'.next = k.next ∧ k'.kind = k.kind

theorem Fixed.recs {k k' : Skel} (h : Fixed k k') : Arc.recs k' = Arc.recs k := recs_same h.1 fun x _ => by rw [h.2]

theorem dropStrong_fixed {h h' : Heap α} {x : Nat} {ts : List Task} (e : dropStrong h x = .ok (h', ts)) : Fixed h.sk h'.sk := by
  simp only [dropStrong] at e
  split at e
  · cases e
  · split at e
    · cases e; exact ⟨rfl, rfl⟩
    · split at e
      · cases e
      · cases e; exact ⟨rfl, rfl⟩
      · obtain ⟨h1, e1, e⟩ := bind_ok e
        obtain ⟨h2, e2, e⟩ := bind_ok e
        cases pure_ok e
        rw [decW_k e2, decW_k e1]; exact ⟨rfl, rfl⟩
      · obtain ⟨h1, e1, e⟩ := bind_ok e
        obtain ⟨h2, e2, e⟩ := bind_ok e
        obtain ⟨h3, e3, e⟩ := bind_ok e
        cases pure_ok e
        rw [decW_k e3, decW_k e2, decW_k e1]; exact ⟨rfl, rfl⟩
      · split at e
        · cases e; exact ⟨rfl, rfl⟩
        · split at e <;> cases e
          exact ⟨rfl, rfl⟩

theorem taskStep_fixed {h h' : Heap α} {t : Task} {ts : List Task} (e : taskStep h t = .ok (h', ts)) : Fixed h.sk h'.sk := by
  cases t with
  | dropS x => exact dropStrong_fixed e
  | dropRcSlice d i =>
    obtain ⟨⟨h1, ts1⟩, e1, e⟩ := bind_ok e
    cases pure_ok e
    exact dropStrong_fixed e1
  | userCode => cases e; exact ⟨rfl, rfl⟩
  | dropReg r =>
    simp only [taskStep] at e
    split at e
    · cases e; exact ⟨rfl, rfl⟩
    · split at e
      · cases e
      · split at e <;> cases e
        exact ⟨rfl, rfl⟩

theorem ataskStep_fixed {a a' : Arena α} {t : ATask} {ts : List ATask} (e : ataskStep a t = .ok (a', ts)) : Fixed a.b.sk a'.b.sk := by
  cases t with
  | base t =>
    obtain ⟨⟨h', ts'⟩, e1, e2⟩ := bind_ok e
    cases pure_ok e2
    exact taskStep_fixed e1
  | slice d g =>
    obtain ⟨⟨h', ts'⟩, e1, e2⟩ := bind_ok e
    cases pure_ok e2
    exact dropStrong_fixed e1
  | guard g =>
    simp only [ataskStep, Arena.dropG] at e
    split at e
    · cases e
    · split at e
      · cases e; exact ⟨rfl, rfl⟩
      · split at e <;> cases e
        exact ⟨rfl, rfl⟩

theorem unwind_fixed (ts : List ATask) (h : Heap α) : Fixed h.sk (unwind h ts).1.sk := by
  induction ts generalizing h with
  | nil => exact ⟨rfl, rfl⟩
  | cons t ts ih =>
    unfold unwind
    split
    · exact ⟨rfl, rfl⟩
    · next r ts' e => cases e; exact ih _
    · next t' ts' _ e => cases e; exact ih _

/-- No matter what the threads do, upgrades during `into_mut` included. -/
theorem Conf.PReach.boxes (h : Conf.PReach P zst c) : c.a.nbox = recs c.a.b.sk + c.a.ng := by
  induction h with
  | init => rfl
  | @run c c' h i e ih =>
    cases CStep.of e with
    | none hi => exact ih
    | task cl t ts a' new hi ht e1 =>
      have h2 := nbox_task e1
      have h3 := (ataskStep_fixed e1).recs
      show a'.nbox = recs a'.b.sk + a'.ng
      rw [h2.1, h2.2, h3]; exact ih
    | pc cl a' n hi ht e1 =>
      have := boxes_pc (PStep.of e1)
      show a'.nbox = recs a'.b.sk + a'.ng
      omega
  | start h op hp e ih => rw [(Conf.start_T e).2]; exact ih
  | write h k en j x hk hw e ih =>
    rcases Conf.write_cases e with rfl | ⟨_, _, rfl⟩
    · exact ih
    · exact ih
  | @panic c c' h i e ih =>
    simp only [Conf.panic] at e
    split at e
    · next cl0 hi =>
      split at e
      · next r ts us _ _ =>
        cases e
        show c.a.nbox = recs (unwind c.a.b ts).1.sk + c.a.ng
        rw [(unwind_fixed ts c.a.b).recs]; exact ih
      · cases e
    · cases e

end
end Verif.Arc
