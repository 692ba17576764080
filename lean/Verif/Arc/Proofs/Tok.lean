import Verif.Arc.Proofs.Heap2
/-!
# What handles and calls hold

Every handle, pending drop and program point holds a list of tokens: the `Arc`s, `Weak`s and
items that would have to be released if nothing else happened to them.
-/

namespace Verif.Arc
open Verif.Spec (Side Slot Family Rng End)
open Verif.Rc
variable {α : Type}

def entT (e : Ent) : List AT :=
  match e.h with
  | .strong d g => [.ref d, .gd g]
  | .weak _ g => g.toList.map .wk
  | .uniq r => [.reg r]

def slotT : Option Ent → List AT
  | none => []
  | some e => entT e

def ataskT : ATask → List AT
  | .base t => taskT t
  | .slice d g => [.ref d, .gd g]
  | .guard g => [.gd g]

/-- A range whose items are not (or not yet) its own. -/
def bare (r : Reg) : Reg := { r with len := 0 }

def frT (fs : List GFrame) : List AT := fs.map fun f => .ref f.p

def fgT : Fg → AT
  | .kid c => .ref c
  | .val w => .reg w

def pcT : Pc α → List AT
  | .immut r | .split _ r | .nxt _ r | .cut _ _ r => [.reg r]
  | .cl2 d _ => [.ref d]
  | .csCas _ _ r | .csLose _ r => [.reg (bare r)]
  | .gLoad _ fs y => .ref y :: frT fs
  | .gTry _ _ pend fs y => pend.toList.map .gd ++ .ref y :: frT fs
  | .gPar _ _ fs y => .ref y :: frT fs
  | .gCas _ _ og fs y => og.toList.map .gd ++ .ref y :: frT fs
  | .gRet g fs y => .gd g :: .ref y :: frT fs
  | .gm0 d g | .gm1 d g | .gm2 d g | .gm3 d g | .gm4 d g | .gmOpenC d g _ | .gmOpenD d g _ => [.ref d, .gd g]
  | .im0 d g | .im1 d g | .im2 d g | .imOpen d g => [.ref d, .gd g]
  | .imFg todo g r acc => .gd g :: .reg (bare r) :: (acc.map .own ++ todo.map fgT)
  | .imGate g r acc => .gd g :: .reg (bare r) :: acc.map .own
  | .imOk r acc => .reg (bare r) :: acc.map .own
  | .wd g => g.toList.map .wk
  | _ => []

def callT (cl : Call α) : List AT := cl.tasks.flatMap ataskT ++ pcT cl.pc

def entsT (l : List Ent) : List AT := l.flatMap entT

/-- Everything held by anybody. -/
def Conf.T (c : Conf α) : List AT := c.hs.flatMap slotT ++ c.calls.flatMap callT

/-- Everything held by anybody except call `i`. -/
def Conf.rest (c : Conf α) (i : Nat) : List AT := c.hs.flatMap slotT ++ (c.calls.take i ++ c.calls.drop (i + 1)).flatMap callT

theorem list_split {β : Type} {l : List β} {i : Nat} {x : β} (h : l[i]? = some x) : l = l.take i ++ x :: l.drop (i + 1) := by
  obtain ⟨hi, rfl⟩ := List.getElem?_eq_some_iff.1 h
  rw [List.getElem_cons_drop, List.take_append_drop]

theorem set_split {β : Type} {l : List β} {i : Nat} {x y : β} (h : l[i]? = some x) :
    l.set i y = l.take i ++ y :: l.drop (i + 1) := by
  obtain ⟨hi, rfl⟩ := List.getElem?_eq_some_iff.1 h
  rw [List.set_eq_take_append_cons_drop, if_pos hi]

theorem slotT_some (l : List Ent) : (l.map some).flatMap slotT = entsT l := by
  induction l with
  | nil => rfl
  | cons e l ih => simp only [List.map_cons, List.flatMap_cons, ih]; rfl

theorem Conf.T_perm {c : Conf α} {i : Nat} {cl : Call α} (h : c.calls[i]? = some cl) : c.T.Perm (callT cl ++ c.rest i) := by
  have e : c.calls.flatMap callT = (c.calls.take i).flatMap callT ++ (callT cl ++ (c.calls.drop (i + 1)).flatMap callT) := by
    conv => lhs; rw [list_split h]
    rw [List.flatMap_append, List.flatMap_cons]
  simp only [Conf.T, Conf.rest, e, List.flatMap_append]
  exact ((List.perm_append_comm_assoc _ _ _).append_left _).trans (List.perm_append_comm_assoc _ _ _)

/-- The configuration after a step of call `i`. -/
def Conf.after (c : Conf α) (i : Nat) (a : Arena α) (cl : Call α) (new : List Ent) : Conf α :=
  ⟨a, c.hs ++ new.map some, c.calls.set i { cl with out := cl.out ++ List.range' c.hs.length new.length }⟩

theorem Conf.step_eq {c : Conf α} {i : Nat} {cl : Call α} (h : c.calls[i]? = some cl) :
    c.step i = match callStep c.a cl with
      | .ok (a, cl', new) => .ok (c.after i a cl' new)
      | .error u => .error u := by
  simp only [Conf.step, h]
  cases callStep c.a cl with
  | error u => rfl
  | ok r => rfl

theorem Conf.step_cases {c c' : Conf α} {i : Nat} (h : c.step i = .ok c') :
    (c.calls[i]? = none ∧ c' = c) ∨
    ∃ cl a cl' new, c.calls[i]? = some cl ∧ callStep c.a cl = .ok (a, cl', new) ∧ c' = c.after i a cl' new := by
  cases hc : c.calls[i]? with
  | none => simp only [Conf.step, hc, Except.ok.injEq] at h; exact .inl ⟨rfl, h.symm⟩
  | some cl =>
    rw [Conf.step_eq hc] at h
    cases hs : callStep c.a cl with
    | error u => rw [hs] at h; cases h
    | ok r =>
      obtain ⟨a, cl', new⟩ := r
      rw [hs] at h; cases h
      exact .inr ⟨cl, a, cl', new, rfl, hs, rfl⟩

theorem Conf.after_T {c : Conf α} {i : Nat} {cl : Call α} (h : c.calls[i]? = some cl) (a : Arena α) (cl' : Call α) (new : List Ent) :
    (c.after i a cl' new).T.Perm (callT cl' ++ entsT new ++ c.rest i) := by
  simp only [Conf.T, Conf.rest, Conf.after, set_split h, List.flatMap_append, List.flatMap_cons, slotT_some]
  have e : callT { cl' with out := cl'.out ++ List.range' c.hs.length new.length } = callT cl' := rfl
  rw [e]
  simp only [List.append_assoc]
  exact (((List.perm_append_comm_assoc _ _ _).append_left _).trans
    (List.perm_append_comm_assoc _ _ _)).append_left _ |>.trans
    ((List.perm_append_comm_assoc _ _ _).trans ((List.perm_append_comm_assoc _ _ _).append_left _))

/-- Starting a call moves tokens around. -/
theorem Conf.start_T {c c' : Conf α} {op : Op α} (h : c.start op = some c') : c'.T.Perm c.T ∧ c'.a = c.a := by
  have hsh : ∀ op k (pc : Pc α), pcT pc = [] → (c.shared op k pc).T.Perm c.T ∧ (c.shared op k pc).a = c.a := by
    intro op k pc hp
    refine ⟨?_, rfl⟩
    simp [Conf.T, Conf.shared, callT, hp]
  have hpl : ∀ op (pc : Pc α), pcT pc = [] → (c.plain op pc).T.Perm c.T ∧ (c.plain op pc).a = c.a := by
    intro op pc hp
    refine ⟨?_, rfl⟩
    simp [Conf.T, Conf.plain, callT, hp]
  have hset : ∀ k e (o : Option Ent), c.get k = some e → ∃ U V, c.hs.flatMap slotT = U ++ (entT e ++ V) ∧
      (c.hs.set k o).flatMap slotT = U ++ (slotT o ++ V) := by
    intro k e o hk
    have hk' : c.hs[k]? = some (some e) := by
      simp only [Conf.get] at hk
      cases h1 : c.hs[k]? with
      | none => rw [h1] at hk; cases hk
      | some o' => rw [h1] at hk; cases o' with
        | none => cases hk
        | some e' => cases hk; rfl
    refine ⟨(c.hs.take k).flatMap slotT, (c.hs.drop (k + 1)).flatMap slotT, ?_, ?_⟩
    · conv => lhs; rw [list_split hk']
      rw [List.flatMap_append, List.flatMap_cons]; rfl
    · rw [set_split hk', List.flatMap_append, List.flatMap_cons]
  have htk : ∀ op k (pc : Pc α) ts e, c.get k = some e → (ts.flatMap ataskT ++ pcT pc = entT e) →
      (c.taking op k pc ts).T.Perm c.T ∧ (c.taking op k pc ts).a = c.a := by
    intro op k pc ts e hk hp
    refine ⟨?_, rfl⟩
    obtain ⟨U, V, e1, e2⟩ := hset k e none hk
    simp only [Conf.T, Conf.taking, e1, e2, List.flatMap_append, List.flatMap_cons, List.flatMap_nil, List.append_nil,
      callT, hp, List.append_assoc]
    refine List.Perm.append_left _ ?_
    simp only [slotT, List.nil_append]
    refine (List.Perm.append_left _ List.perm_append_comm).trans ?_
    exact List.perm_append_comm_assoc _ _ _
  cases op with
  | new xs => simp only [Conf.start, Option.some.injEq] at h; subst h; exact hpl _ _ rfl
  | mutNew xs => simp only [Conf.start, Option.some.injEq] at h; subst h; exact hpl _ _ rfl
  | weakNew =>
    simp only [Conf.start, Option.some.injEq] at h; subst h
    exact ⟨by simp [Conf.T, slotT, entT], rfl⟩
  | clone k =>
    simp only [Conf.start] at h
    split at h
    · cases h; exact hsh _ _ _ rfl
    · cases h; exact hsh _ _ _ rfl
    · cases h
  | cloneSide s k =>
    simp only [Conf.start] at h
    split at h
    · cases h; exact hsh _ _ _ rfl
    · cases h
  | endMut k =>
    simp only [Conf.start] at h
    split at h
    · next hk =>
      cases h
      obtain ⟨U, V, e1, e2⟩ := hset k _ (some _) hk
      refine ⟨?_, rfl⟩
      simp only [Conf.T]; rw [e1, e2]; exact .refl _
    · cases h
  | downgrade k =>
    simp only [Conf.start] at h
    split at h
    · cases h; exact hsh _ _ _ rfl
    · cases h
  | upgrade k =>
    simp only [Conf.start] at h
    split at h
    · cases h; exact hsh _ _ _ rfl
    · cases h
  | getMut k =>
    simp only [Conf.start] at h
    split at h
    · next hk => split at h <;> cases h; exact htk _ _ _ _ _ hk rfl
    · cases h
  | intoMut k =>
    simp only [Conf.start] at h
    split at h
    · next hk => split at h <;> cases h; exact htk _ _ _ _ _ hk rfl
    · cases h
  | intoImmut k =>
    simp only [Conf.start] at h
    split at h
    · next hk => split at h <;> cases h; exact htk _ _ _ _ _ hk rfl
    · cases h
  | splitOff s k =>
    simp only [Conf.start] at h
    split at h
    · next hk => split at h <;> cases h; exact htk _ _ _ _ _ hk rfl
    · cases h
  | next e k =>
    simp only [Conf.start] at h
    split at h
    · next hk => split at h <;> cases h; exact htk _ _ _ _ _ hk rfl
    · cases h
  | cut e n k =>
    simp only [Conf.start] at h
    split at h
    · next hk => split at h <;> cases h; exact htk _ _ _ _ _ hk rfl
    · cases h
  | drop k =>
    simp only [Conf.start] at h
    split at h
    · next hk => split at h <;> cases h; exact htk _ _ _ _ _ hk rfl
    · next hk => split at h <;> cases h; exact htk _ _ _ _ _ hk rfl
    · next hk => split at h <;> cases h; exact htk _ _ _ _ _ hk rfl
    · cases h

end Verif.Arc
