import Verif.Arc.Proofs.Pub1
/-!
# What `preObj` and `postObj` leave out
-/

namespace Verif.Arc
open Verif.Spec (Side Slot)
open Verif.Rc
variable {α : Type} {o : Ords}

/-! ## Every atomic access of a step is to an object that the step is said to access -/

/-- The atomic variable that is accessed. -/
def Acc.loc : Acc → Loc
  | .load l _ | .rmw l _ _ | .store l => l

/-- Where it is. -/
def Loc.obj : Loc → Obj
  | .cnt x | .wcnt x | .kid x _ | .box x => .node x
  | .gcnt g | .gwk g | .cgate g | .dgate g => .guard g

/-- Is it part of the contents? Counters survive the contents. -/
def Loc.inside : Loc → Bool
  | .kid _ _ | .box _ | .cgate _ | .dgate _ => true
  | _ => false

/-- What is said about an access: where it is counts as accessed, its contents if it is there, or they are destroyed. -/
def Noted (a a' : Arena α) (cl : Call α) (l : Loc) : Prop :=
  if l.inside then l.obj ∈ callBody cl ∨ postObj a a' l.obj = .free else l.obj ∈ callHead a cl ++ callBody cl

theorem dropAcc_noted {a : Arena α} {cl : Call α} {x : Nat} {b : Heap α} {ts : List Task} (e : dropStrong a.b x = .ok (b, ts))
    (hh : callHead a cl = dropHead a x) : ∀ r ∈ dropAcc a x, Noted a (a.withB b) cl r.loc := by
  intro r hr
  simp only [dropAcc] at hr
  split at hr
  · next h1 =>
    rcases List.mem_cons.1 hr with rfl | hr
    · simp [Noted, Acc.loc, Loc.inside, Loc.obj, hh, dropHead]
    · split at hr
      · next v hv =>
        simp only [dropStrong, h1, hv] at e
        simp at e
        obtain ⟨rfl, rfl⟩ := e
        simp only [List.mem_append, List.mem_cons, List.not_mem_nil, or_false, List.mem_map, Option.mem_toList] at hr
        rcases hr with ((rfl | rfl) | ⟨p, hp, rfl⟩) | rfl
        · simp [Noted, Acc.loc, Loc.inside, Loc.obj, postObj, Arena.live, hv, Arena.withB, Heap.kill, upd]
        · simp [Noted, Acc.loc, Loc.inside, Loc.obj, postObj, Arena.live, hv, Arena.withB, Heap.kill, upd]
        · have hp' : a.par x = some p := hp
          simp [Noted, Acc.loc, Loc.inside, Loc.obj, hh, dropHead, hv, h1, hp']
        · simp [Noted, Acc.loc, Loc.inside, Loc.obj, hh, dropHead]
      · cases hr
  · rw [List.mem_singleton] at hr
    subst hr
    simp [Noted, Acc.loc, Loc.inside, Loc.obj, hh, dropHead]

theorem unwrapAcc_noted {a a' : Arena α} {cl : Call α} {x : Nat} {v : DataV} (hv : a.b.getData x = .ok v) (h1 : a.b.strong x = 1 → a' = a.withB (a.b.kill x))
    (hh : callHead a cl = .node x :: (a.par x).toList.map .node) : ∀ r ∈ unwrapAcc a x, Noted a a' cl r.loc := by
  intro r hr
  simp only [unwrapAcc] at hr
  split at hr
  · next hs =>
    have hn := getData_some hv
    simp only [List.mem_append, List.mem_cons, List.not_mem_nil, or_false, List.mem_map, Option.mem_toList] at hr
    rcases hr with ((rfl | rfl | rfl) | ⟨p, hp, rfl⟩) | rfl
    · simp [Noted, Acc.loc, Loc.inside, Loc.obj, hh]
    · simp [Noted, Acc.loc, Loc.inside, Loc.obj, postObj, Arena.live, hn, h1 hs, Arena.withB, Heap.kill, upd]
    · simp [Noted, Acc.loc, Loc.inside, Loc.obj, postObj, Arena.live, hn, h1 hs, Arena.withB, Heap.kill, upd]
    · have hp' : a.par x = some p := hp
      simp [Noted, Acc.loc, Loc.inside, Loc.obj, hh, hp']
    · simp [Noted, Acc.loc, Loc.inside, Loc.obj, hh]
  · cases hr

theorem pcAcc_noted {a a' : Arena α} {cl : Call α} {n : Next α} (ht : cl.tasks = []) (hs : PStep a cl.pc a' n) :
    ∀ r ∈ pcAcc o a cl.pc, Noted a a' cl r.loc := by
  have hh : callHead a cl = pcHead a cl.pc := by simp only [callHead, ht]
  have hb : callBody cl = pcBody cl.pc := by simp only [callBody, ht]
  revert hh hb
  generalize cl.pc = pc at hs
  intro hh hb
  cases hs
  case csSame d s v h hd hs' e => simp [pcAcc, hd, hs']
  case csKid d s v c hd hs' hk => simp [pcAcc, hd, hs', Noted, Acc.loc, Loc.inside, Loc.obj, hb, pcBody]
  case csNo d s v hd hs' hk => simp [pcAcc, hd, hs', Noted, Acc.loc, Loc.inside, Loc.obj, hb, pcBody]
  case csWin d s r v h1 c h2 hd hk e1 e2 => simp [pcAcc, hd, hk, Noted, Acc.loc, Loc.inside, Loc.obj, hb, pcBody]
  case csLost d s r v c hd hk => simp [pcAcc, hd, hk, Noted, Acc.loc, Loc.inside, Loc.obj, hb, pcBody]
  case csLose c r h e =>
    cases hp : a.par c <;> simp [pcAcc, hp, Noted, Acc.loc, Loc.inside, Loc.obj, hh, pcHead]
  case gTryNo x b pend fs y h =>
    cases hp : a.tgt b with
    | none => simp [pcAcc, hp]
    | some g => simp [pcAcc, hp, h g hp, Noted, Acc.loc, Loc.inside, Loc.obj, hh, pcHead]
  case gTryOk x b pend fs y g hp h => simp [pcAcc, hp, h, Noted, Acc.loc, Loc.inside, Loc.obj, hh, pcHead]
  case gParNo x b fs y v hd h =>
    cases hp : a.par x with
    | none => simp [pcAcc, hp]
    | some g => simp [pcAcc, hp, upAcc, h g hp, Noted, Acc.loc, Loc.inside, Loc.obj, hh, pcHead]
  case gParUp x b fs y v p h hd hp h2 e => simp [pcAcc, hp, upAcc, h2, Noted, Acc.loc, Loc.inside, Loc.obj, hh, pcHead]
  case gCasWin x b og fs y v hd h => simp [pcAcc, h, Noted, Acc.loc, Loc.inside, Loc.obj, hb, pcBody]
  case gCasLost x b og fs y v hd h => simp [pcAcc, h, Noted, Acc.loc, Loc.inside, Loc.obj, hb, pcBody]
  case im2 d g v hd hc => exact unwrapAcc_noted hd (fun _ => rfl) hh
  case im2No d g v hd hc => exact unwrapAcc_noted hd (fun h => absurd h hc) hh
  case imKid c todo g r acc v hd hc => exact unwrapAcc_noted hd (fun _ => rfl) hh
  case imKidNo c todo g r acc v hd hc => exact unwrapAcc_noted hd (fun h => absurd h hc) hh
  case up d h hs' e => simp [pcAcc, upAcc, hs', Noted, Acc.loc, Loc.inside, Loc.obj, hh, pcHead]
  case upNo d h => simp [pcAcc, upAcc, h, Noted, Acc.loc, Loc.inside, Loc.obj, hh, pcHead]
  all_goals simp [pcAcc, Noted, Acc.loc, Loc.inside, Loc.obj, hh, hb, pcHead, pcBody]

/-! ## Whatever a step changes is in an object that the step is said to access -/

/-- Which objects a step changes. -/
structure Framed (a a' : Arena α) (head body : List Obj) : Prop where
  node : ∀ x, a'.b.sk.node x ≠ a.b.sk.node x → New a a' (.node x) ∨ .node x ∈ body ∨ a'.b.sk.node x = none
  par : ∀ x, a'.par x ≠ a.par x → New a a' (.node x)
  box : ∀ x, a'.box x ≠ a.box x → New a a' (.node x) ∨ .node x ∈ body
  tgt : ∀ b, a'.tgt b ≠ a.tgt b → New a a' (.box b)
  guard : ∀ g, a'.guard g ≠ a.guard g → New a a' (.guard g) ∨ .guard g ∈ body ∨ a'.guard g = none
  gOf : ∀ g, a'.gOf g ≠ a.gOf g → New a a' (.guard g)
  strong : ∀ x, a'.b.strong x ≠ a.b.strong x → New a a' (.node x) ∨ .node x ∈ head ++ body
  gS : ∀ g, a'.gS g ≠ a.gS g → New a a' (.guard g) ∨ .guard g ∈ head ++ body
  gW : ∀ g, a'.gW g ≠ a.gW g → New a a' (.guard g) ∨ .guard g ∈ head ++ body

theorem Framed.refl {a : Arena α} {head body : List Obj} : Framed a a head body := by constructor <;> simp

theorem Framed.strongs {a : Arena α} {h : Heap α} {head body : List Obj} (hs : h.sk = a.b.sk)
    (hn : ∀ x, h.strong x ≠ a.b.strong x → .node x ∈ head ++ body) : Framed a (a.withB h) head body := by
  constructor <;> simp only [Arena.withB, hs] <;> intro x hx <;> first | exact absurd rfl hx | exact .inr (hn x hx)

theorem inc_strong {h h' : Heap α} {x : Nat} (e : h.incS x = .ok h') {y : Nat} (hy : h'.strong y ≠ h.strong y) : y = x := by
  obtain ⟨_, rfl⟩ := incS_some e
  simp only [upd] at hy
  grind

theorem incOpt_strong {h h' : Heap α} {x : Option Nat} (e : h.incSOpt x = .ok h') {y : Nat} (hy : h'.strong y ≠ h.strong y) : x = some y := by
  cases x with
  | none => cases e; exact absurd rfl hy
  | some x => rw [inc_strong e hy]

theorem framed_split {a : Arena α} {h : Heap α} {r1 r2 new rest : Reg} {body : List Obj} (e : iterSplit a.b r1 r2 = .ok (h, new, rest)) :
    Framed a (a.withB h) (r2.alloc.toList.map .node) body := by
  simp only [iterSplit] at e
  obtain ⟨⟨h1, x, y⟩, e1, e2⟩ := bind_ok e
  cases pure_ok e2
  simp only [splitAlloc] at e1
  split at e1
  · cases e1; exact .strongs rfl fun x hx => absurd rfl hx
  · split at e1
    · obtain ⟨h2, e3, e4⟩ := bind_ok e1
      cases pure_ok e4
      exact .strongs (incSOpt_same e3).1 fun x hx => by simp [incOpt_strong e3 hx]
    · cases e1; exact .strongs rfl fun x hx => absurd rfl hx

set_option linter.unusedSimpArgs false in
theorem framed_pc {a a' : Arena α} {pc : Pc α} {n : Next α} (hs : PStep a pc a' n) : Framed a a' (pcHead a pc) (pcBody pc) := by
  cases hs
  case cl1 d g h e => exact .strongs (incS_same e).1 fun x hx => by rw [inc_strong e hx]; simp [pcHead]
  case csSame d s v h hd hs e => exact .strongs (incS_same e).1 fun x hx => by rw [inc_strong e hx]; simp [pcHead]
  case csInc c h e => exact .strongs (incS_same e).1 fun x hx => by rw [inc_strong e hx]; simp [pcHead]
  case csLose c r h e => exact .strongs (incS_same e).1 fun x hx => by rw [inc_strong e hx]; simp [pcHead]
  case gParUp x b fs y v p h hd hp h2 e => exact .strongs (incS_same e).1 fun x hx => by rw [inc_strong e hx]; simp [pcHead, hp]
  case up d h hs' e => exact .strongs (incS_same e).1 fun x hx => by rw [inc_strong e hx]; simp [pcHead]
  case csNew d s v h hd e =>
    refine .strongs (incSOpt_same e).1 fun x hx => ?_
    have := incOpt_strong e hx
    simp only [pcHead, hd]
    split at this
    · cases this
    · simp [this]
  case split s r h new rest e =>
    simp only [regSplitOff] at e
    obtain ⟨h1, e1, e2⟩ := bind_ok e
    cases pure_ok e2
    refine .strongs (incSOpt_same e1).1 fun x hx => ?_
    have := incOpt_strong e1 hx
    have hr : r.alloc = some x := by
      cases s <;> simp only at this <;> grind
    simp [pcHead, hr]
  case cutF e => have := framed_split e (body := []); exact this
  case cutB e => have := framed_split e (body := []); exact this
  case nxt e =>
    simp only [iterNext] at e
    split at e
    · cases e; exact .strongs rfl fun x hx => absurd rfl hx
    · split at e
      · cases e
      · split at e
        · split at e <;> split at e <;> cases e <;> exact .strongs rfl fun x hx => absurd rfl hx
        · cases e
  case mutNew xs h r e =>
    simp only [mutFromBox] at e
    split at e <;> cases e <;> constructor <;>
      simp only [Arena.withB, New, Arena.made, upd, Heap.rcNew, newBuf] <;> grind
  case new0 e => 
    cases e
    constructor <;> simp only [Arena.withB, Arena.root, Arena.newBox, New, Arena.made, upd, Heap.rcNew, newBuf, newFam] <;> grind
  case new1 eh hr e =>
    cases eh; cases e
    constructor <;> simp only [Arena.withB, Arena.root, Arena.newBox, New, Arena.made, upd, Heap.rcNew, newBuf, newFam] <;> grind
  case immut e =>
    cases e
    constructor <;> simp only [Arena.withB, Arena.root, Arena.newBox, New, Arena.made, upd, Heap.rcNew, newBuf, newFam] <;> grind
  case csWin d s r v h1 c h2 hd hk e1 e2 =>
    cases e1
    obtain ⟨_, rfl⟩ := incS_some e2
    constructor <;> simp only [Arena.withB, Arena.newBox, New, Arena.made, upd, Heap.rcNew, Heap.setNode, pcBody] <;> grind
  case im2 d g v hd hc => 
    constructor <;> simp only [Arena.withB, New, Arena.made, upd, Heap.kill, pcHead, pcBody] <;> grind
  case imKid c todo g r acc v hd hc =>
    constructor <;> simp only [Arena.withB, New, Arena.made, upd, Heap.kill, pcHead, pcBody] <;> grind
  all_goals first
    | exact .refl
    | (constructor <;> simp only [Arena.setG, Arena.newBox, New, Arena.made, upd, pcHead, pcBody] <;> grind)

theorem framed_drop {a : Arena α} {h : Heap α} {x : Nat} {ts : List Task} (ho : ∀ n, a.b.sk.node x = some n → n.kind = .data ∨ n.kind = .alloc)
    (e : dropStrong a.b x = .ok (h, ts)) : Framed a (a.withB h) (dropHead a x) [] := by
  simp only [dropStrong] at e
  split at e
  · cases e
  · split at e
    · cases e
      refine .strongs rfl fun y hy => ?_
      simp only [upd] at hy
      split at hy
      · next h => simp [dropHead, h]
      · exact absurd rfl hy
    · split at e
      · cases e
      · cases e
        constructor <;> simp only [Arena.withB, New, Arena.made, upd, Heap.kill, dropHead] <;> grind
      · next hn => have := ho _ hn; simp [Node.kind] at this
      · next hn => have := ho _ hn; simp [Node.kind] at this
      · split at e
        · cases e
          constructor <;> simp only [Arena.withB, New, Arena.made, upd, Heap.kill, dropHead] <;> grind
        · split at e
          · cases e
            constructor <;> simp only [Arena.withB, New, Arena.made, upd, Heap.kill, dropHead] <;> grind
          · cases e

theorem framed_task {a a' : Arena α} {t : ATask} {ts : List ATask} (ho : ∀ x n, a.b.sk.node x = some n → n.kind = .data ∨ n.kind = .alloc)
    (hp : aplain t) (e : ataskStep a t = .ok (a', ts)) : Framed a a' (ataskHead a t) [] := by
  cases t with
  | base t =>
    obtain ⟨⟨h', ts'⟩, e1, e2⟩ := bind_ok e
    cases pure_ok e2
    cases t with
    | dropS x => exact framed_drop (ho x) e1
    | dropReg r =>
      simp only [taskStep] at e1
      split at e1
      · cases e1; exact .strongs rfl fun x hx => absurd rfl hx
      · split at e1
        · cases e1
        · split at e1
          · cases e1; exact .strongs rfl fun x hx => absurd rfl hx
          · cases e1
    | dropRcSlice d i => cases hp
    | userCode => cases e1; exact .strongs rfl fun x hx => absurd rfl hx
  | slice d g =>
    obtain ⟨⟨h', ts'⟩, e1, e2⟩ := bind_ok e
    cases pure_ok e2
    exact framed_drop (ho d) e1
  | guard g =>
    simp only [ataskStep, Arena.dropG] at e
    split at e
    · cases e
    · split at e
      · cases e
        constructor <;> simp only [New, Arena.made, upd, ataskHead] <;> grind
      · split at e
        · cases e
        · cases e
          constructor <;> simp only [New, Arena.made, upd, ataskHead] <;> grind

/-- All changes made by a step are taken into account. -/
theorem framed_step {c c' : Conf α} (B : c.BI) {i : Nat} {cl : Call α} (e : c.step i = .ok c') (hi : c.calls[i]? = some cl) :
    Framed c.a c'.a (callHead c.a cl) (callBody cl) := by
  cases CStep.of e with
  | none h => exact .refl
  | task cl2 t ts a' new hi2 ht e2 =>
    rw [hi] at hi2; cases hi2
    simp only [callHead, callBody, ht]
    exact framed_task B.heap.only ((B.calls i cl hi).2 t (by simp [ht])) e2
  | pc cl2 a' n hi2 ht e2 =>
    rw [hi] at hi2; cases hi2
    simp only [callHead, callBody, ht]
    exact framed_pc (.of e2)

end Verif.Arc
