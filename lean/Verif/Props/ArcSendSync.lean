import Verif.Arc.Proofs.HomeThread
import Verif.Props.ArcFails
import Verif.Props.ArcUnwind
/-!
# C67, C68: `Send` and `Sync`

Programs that move and share handles between threads as far as `Send` and `Sync` allow it do not thereby get at items in a way
that the type of the items forbids.
-/

namespace Verif
open Arc
open Spec (Side Slot Rng End)
variable {α : Type} {T : Auto} {P : Rules α} {zst : Bool} {s : TConf α} {c' : Conf α}

/-! ## Which types are `Send` and `Sync` -/

/-- The rule for the fields of `DataGuard`, with the field that refers to the same type. -/
theorem Arc.Auto.dataGuard_rec : Auto.dataGuard = Auto.fields [Auto.arc Auto.dataGuard, Auto.gate, Auto.gate] := rfl

/-- C67: `ArcSlice`, `WeakSlice` and `ArcSliceParts` are `Send` and `Sync` if `T` is both, as `Arc<[T]>` is. The `ArcSliceMut` types are `Send` if `T` is
and `Sync` if `T` is, as `Box<[T]>` is. -/
theorem C67_traits (T : Auto) :
    T.arcSlice = ⟨T.send && T.sync, T.send && T.sync⟩ ∧ T.weakSlice = ⟨T.send && T.sync, T.send && T.sync⟩ ∧
    T.arcSliceParts = ⟨T.send && T.sync, T.send && T.sync⟩ ∧
    T.arcSliceMut = ⟨T.send, T.sync⟩ ∧ T.arcSliceMutIter = ⟨T.send, T.sync⟩ ∧ T.arcSliceMutParts = ⟨T.send, T.sync⟩ := by
  obtain ⟨a, b⟩ := T
  cases a <;> cases b <;> exact ⟨rfl, rfl, rfl, rfl, rfl, rfl⟩

/-- C67: The `RcSlice` types are neither `Send` nor `Sync`. -/
theorem C67_rc (T d g : Auto) : Auto.rcSlice d g = ⟨false, false⟩ ∧ Auto.rcWeakSlice d g = ⟨false, false⟩ ∧ Auto.rcSliceParts d g = ⟨false, false⟩ ∧
    T.rcSliceMut = ⟨false, false⟩ ∧ T.rcSliceMutIter = ⟨false, false⟩ ∧ T.rcSliceMutParts = ⟨false, false⟩ := by
  obtain ⟨a, b⟩ := T
  cases a <;> cases b <;> exact ⟨rfl, rfl, rfl, rfl, rfl, rfl⟩

/-! ## What they are good for -/

theorem Arc.TConf.Changes.reads {t b i : Nat} (h : s.Changes t b i) : s.Reads T t b i := by
  obtain ⟨k, en, h1, h2, _, h3⟩ := h
  exact ⟨k, en, h1, h2, .inl h3⟩

/-- C68: If `T` is not `Sync`, no two threads have access to the same item, be it to read or to change it. -/
theorem C68_one_thread_partial (hT : T.sync = false) (hP : PStrict P) (h : TReach T P zst s) {t1 t2 b i : Nat} (h1 : s.Reads T t1 b i) (h2 : s.Reads T t2 b i) :
    t1 = t2 := by
  have no : ∀ {hd : Handle} {k : Nat} {m : Bool}, s.c.get k = some ⟨hd, m⟩ → s.c.Shows k b i → (T.handle hd).sync = false := by
    intro hd k m hk hs
    obtain ⟨e1, e2, _, e3, _⟩ := C67_traits T
    cases hd with
    | strong d g => simp only [Auto.handle, e1, hT, Bool.and_false]
    | weak d g => simp only [Auto.handle, e2, hT, Bool.and_false]
    | uniq r => simp only [Auto.handle, e3, hT]
  have key : ∀ {t : Nat}, s.Reads T t b i → ∃ k en, s.c.get k = some en ∧ s.c.Shows k b i ∧ s.holder k en = t := by
    rintro t ⟨k, en, hk, hs, h⟩
    refine ⟨k, en, hk, hs, ?_⟩
    rcases h with h | h | ⟨_, h⟩
    · exact h
    · rw [hT] at h; cases h
    · rw [no hk hs] at h; cases h
  obtain ⟨k1, e1, g1, s1, rfl⟩ := key h1
  obtain ⟨k2, e2, g2, s2, rfl⟩ := key h2
  exact one_thread hT hP h g1 g2 s1 s2

/-- C67: If `T` is not `Send`, items are only changed on the thread that made the slice; and all handles that show them are there. -/
theorem C67_home (hT : T.send = false) (hP : PTame P) (h : TReach T P zst s) {b i : Nat} :
    (∀ t, s.Changes t b i → t = s.home b) ∧ ∀ k, s.c.Shows k b i → s.at_ k = s.home b := by
  obtain ⟨fam, H⟩ := h.homes hT hP
  have A := h.erase.IA' hP
  refine ⟨?_, fun k hk => (H.shows A hk).2⟩
  rintro t ⟨k, en, hk, hs, _, rfl⟩
  simp only [TConf.holder]
  split
  · next hm => rw [H.lent k en hk hm]; exact (H.shows A hs).2
  · exact (H.shows A hs).2

/-- C67: If `T` is not `Send`, items are dropped and moved out on the thread that made the slice. (`s.on i` is the thread that executes call number `i`.) -/
theorem C67_leave (hT : T.send = false) (hP : PTame P) (h : TReach T P zst s) {i b j : Nat} {x : α} (e : s.c.step i = .ok c')
    (h1 : s.c.a.b.slot b j = .live x) (h2 : c'.a.b.slot b j ≠ .live x) : s.on i = s.home b := by
  obtain ⟨fam, H⟩ := h.homes hT hP
  exact H.leave (h.erase.IA' hP) e h1 h2

/-- C67: and if a destructor panics, the items that are lost for that reason were made on the thread on which this happens. -/
theorem C67_lost (hT : T.send = false) (hP : PTame P) (h : TReach T P zst s) {i b j : Nat} (e : s.c.panic i = some c')
    (h1 : c'.a.b.slot b j ≠ s.c.a.b.slot b j) : s.on i = s.home b := by
  obtain ⟨fam, H⟩ := h.homes hT hP
  obtain ⟨cl, r, ts, ts', us, sl, p⟩ := Panicked.of (h.erase.BI hP).heap e
  obtain ⟨⟨r', h6, rfl, h7, h8⟩, _⟩ := C53_lost hP h.erase e p.call p.tasks h1
  exact (H.task i cl p.call (.base (.dropReg r')) (by rw [p.tasks]; simp [h6]) (by omega)).2.symm

/-! ## Executions -/

namespace Arc

/-- A step of a program on several threads. -/
inductive TAct (α : Type) where
  /-- thread `t` starts a call -/
  | op (t : Nat) (o : Op α)
  /-- call `i` takes `n` steps -/
  | run (i n : Nat)
  /-- handle `k` is moved to thread `t` -/
  | send (k t : Nat)
  /-- the `&mut [T]` made of handle `k` is moved to thread `t` -/
  | lend (k t : Nat)

namespace TConf

def mayB (T : Auto) (s : TConf α) (t : Nat) (op : Op α) : Bool :=
  match op.on with
  | none => true
  | some k => match s.c.get k with
    | none => true
    | some en => s.at_ k == t || (op.byRef && (T.handle en.h).sync)

theorem mayB_may {t : Nat} {op : Op α} (h : s.mayB T t op = true) : s.may T t op := by
  intro k en h1 h2
  simp only [mayB, h1, h2, Bool.or_eq_true, beq_iff_eq, Bool.and_eq_true] at h
  exact h

def steps (s : TConf α) (i : Nat) : Nat → Except Rc.UB (TConf α)
  | 0 => .ok s
  | n + 1 => match s.c.step i with
    | .ok c' => steps ⟨c', fill s.at_ s.c.hs.length (s.on i), s.on, fill s.lent s.c.hs.length (s.on i), fill s.home s.c.a.b.sk.nbuf (s.on i)⟩ i n
    | .error u => .error u

theorem steps_reach {i n : Nat} : ∀ {s s' : TConf α}, TReach T P zst s → s.steps i n = .ok s' → TReach T P zst s' := by
  induction n with
  | zero => intro s s' h e; cases e; exact h
  | succ n ih =>
    intro s s' h e
    simp only [steps] at e
    split at e
    · next c' hc => exact ih (.run h i hc) e
    · cases e

/-- Execute a schedule, checking the rules for calls and those for threads. -/
def exec (T : Auto) (p : Conf α → Op α → Bool) (s : TConf α) : List (TAct α) → Option (TConf α)
  | [] => some s
  | .op t o :: as => if p s.c o && s.mayB T t o then
      match s.c.start o with
      | some c' => exec T p ⟨c', fill s.at_ s.c.hs.length t, fill s.on s.c.calls.length t, s.lent, s.home⟩ as
      | none => none
    else none
  | .run i n :: as => match s.steps i n with
    | .ok s' => exec T p s' as
    | .error _ => none
  | .send k t :: as => match s.c.get k with
    | some en => if !s.c.borrowed k && !en.mutb && (T.handle en.h).send then exec T p { s with at_ := Rc.upd s.at_ k t } as else none
    | none => none
  | .lend k t :: as => match s.c.get k with
    | some en => if en.mutb && T.send then exec T p { s with lent := Rc.upd s.lent k t } as else none
    | none => none

theorem exec_reach {p : Conf α → Op α → Bool} : ∀ {as : List (TAct α)} {s s' : TConf α}, TReach T (fun c op => p c op = true) zst s →
    s.exec T p as = some s' → TReach T (fun c op => p c op = true) zst s' := by
  intro as
  induction as with
  | nil => intro s s' h e; cases e; exact h
  | cons a as ih =>
    intro s s' h e
    cases a with
    | op t o =>
      simp only [exec] at e
      split at e
      · next hc =>
        simp only [Bool.and_eq_true] at hc
        split at e
        · next c' hs => exact ih (.start h t o hc.1 (mayB_may hc.2) hs) e
        · cases e
      · cases e
    | run i n =>
      simp only [exec] at e
      split at e
      · next s1 hs => exact ih (steps_reach h hs) e
      · cases e
    | send k t =>
      simp only [exec] at e
      split at e
      · next en hk =>
        split at e
        · next hc =>
          simp only [Bool.and_eq_true, Bool.not_eq_true'] at hc
          exact ih (.send h k t en hk hc.1.1 hc.1.2 hc.2) e
        · cases e
      · cases e
    | lend k t =>
      simp only [exec] at e
      split at e
      · next en hk =>
        split at e
        · next hc =>
          simp only [Bool.and_eq_true] at hc
          exact ih (.lend h k t en hk hc.1 hc.2) e
        · cases e
      · cases e

/-- Nothing has happened yet. -/
def start0 : TConf Nat := ⟨Conf.init false, fun _ => 0, fun _ => 0, fun _ => 0, fun _ => 0⟩

/-- What a schedule leads to. -/
def out (T : Auto) (p : Conf Nat → Op Nat → Bool) (as : List (TAct Nat)) : TConf Nat := (start0.exec T p as).getD start0

theorem out_reach {p : Conf Nat → Op Nat → Bool} {as : List (TAct Nat)} (h : (start0.exec T p as).isSome = true) :
    TReach T (fun c op => p c op = true) false (out T p as) := by
  cases hx : start0.exec T p as with
  | none => rw [hx] at h; cases h
  | some s =>
    have : out T p as = s := by simp only [out, hx, Option.getD_some]
    rw [this]
    exact exec_reach (.init _ _ _ _) hx

end TConf

/-- Something that is `Send` but not `Sync`, like `Cell<u32>`. -/
def cell : Auto := ⟨true, false⟩

/-- `Sync` but not `Send`, like `MutexGuard<u32>`. -/
def mutexGuard : Auto := ⟨false, true⟩

/-- On one thread: `let mut a = ArcSlice::new(vec![1, 2]); let l = ArcSlice::clone_left(&a); let w = ArcSlice::downgrade(&l); drop(l);
let m = ArcSlice::get_mut(&mut a);`. The reference `m` is moved to a scoped thread, and the first thread executes `w.upgrade()`. -/
def lentOut : List (TAct Nat) :=
  [.op 0 (.new [1, 2]), .run 0 8, .op 0 (.cloneSide .L 0), .run 1 20, .op 0 (.downgrade 1), .run 2 10, .op 0 (.drop 1), .run 3 12,
    .op 0 (.getMut 0), .run 4 10, .lend 3 1, .op 0 (.upgrade 2), .run 5 20]

end Arc

/-- C68 is false of all programs taken together, for the reason for which C38 is: with items like `Cell<u32>`, one thread can change an item
while another one reads it. -/
theorem C68_fails : ∃ s : TConf Nat, TReach cell (fun _ _ => true = true) false s ∧ s.Changes 1 0 0 ∧ s.Reads cell 0 0 0 := by
  refine ⟨.out cell (fun _ _ => true) lentOut, TConf.out_reach (p := fun _ _ => true) (by decide +kernel), ?_, ?_⟩
  · exact ⟨3, ⟨.strong 1 0, true⟩, rfl, ⟨⟨.strong 1 0, true⟩, 0, 2, rfl, rfl, by decide, by decide⟩, rfl,
      by decide +kernel⟩
  · exact ⟨4, ⟨.strong 2 2, false⟩, rfl, ⟨⟨.strong 2 2, false⟩, 0, 1, rfl, rfl, by decide, by decide⟩,
      .inl (by decide +kernel)⟩

/-! ## Examples -/

namespace Arc

/-- Two threads with items that are not `Sync`: thread 0 makes an `ArcSliceMut` of five items, splits it, and gives one half to thread 1,
which turns it into an `ArcSlice` and clones half of it. -/
def halfAway : List (TAct Nat) :=
  [.op 0 (.mutNew [5, 6, 7, 8, 9]), .run 0 5, .op 0 (.splitOff .L 0), .run 1 5, .send 1 1, .op 1 (.intoImmut 1), .run 2 30, .op 1 (.cloneSide .R 3), .run 3 30]

/-- Items that are not `Send`: thread 0 makes a slice and halves it; thread 1 makes one of its own. -/
def ownHomes : List (TAct Nat) :=
  [.op 0 (.new [5, 6, 7]), .run 0 30, .op 1 (.new [1, 2]), .run 1 30, .op 0 (.cloneSide .R 0), .run 2 30, .op 1 (.getMut 1), .run 3 30]

/-- Thread 0 drops both handles; call 5 has yet to drop the items. -/
def dropHome : List (TAct Nat) := ownHomes ++ [.op 0 (.drop 2), .run 4 30, .op 0 (.drop 0), .run 5 2]

def obeys : Conf Nat → Op Nat → Bool := fun c op => c.strict op

theorem pstrict_obeys : PStrict (fun c op => obeys c op = true) := fun _ _ _ _ h => h

end Arc

/-- C68_one_thread_partial: item 1 is shown by the two handles that thread 1 has (3 and 4), item 3 by the one of thread 0. -/
example : TReach cell (fun c op => obeys c op = true) false (TConf.out cell obeys halfAway) ∧
    (TConf.out cell obeys halfAway).Reads cell 1 0 1 ∧ (TConf.out cell obeys halfAway).Changes 0 0 3 ∧
    (TConf.out cell obeys halfAway).c.Shows 3 0 1 ∧ (TConf.out cell obeys halfAway).c.Shows 4 0 1 :=
  have h1 : (TConf.out cell obeys halfAway).c.Shows 3 0 1 := ⟨⟨.strong 1 0, false⟩, 0, 2, rfl, rfl, by decide, by decide⟩
  have h2 : (TConf.out cell obeys halfAway).c.Shows 4 0 1 := ⟨⟨.strong 2 1, false⟩, 1, 1, rfl, rfl, by decide, by decide⟩
  ⟨TConf.out_reach (by decide +kernel), ⟨3, _, rfl, h1, .inl (by decide +kernel)⟩,
    ⟨2, ⟨.uniq ⟨0, 2, 3, some 0⟩, false⟩, rfl, ⟨_, 2, 3, rfl, rfl, by decide, by decide⟩, rfl, by decide +kernel⟩, h1, h2⟩

/-- C67_home: slice 0 was made by thread 0, slice 1 by thread 1, which can change it. -/
example : TReach mutexGuard (fun c op => obeys c op = true) false (TConf.out mutexGuard obeys ownHomes) ∧
    (TConf.out mutexGuard obeys ownHomes).Changes 1 1 0 ∧ (TConf.out mutexGuard obeys ownHomes).c.Shows 2 0 1 ∧
    (TConf.out mutexGuard obeys ownHomes).home 1 = 1 ∧ (TConf.out mutexGuard obeys ownHomes).home 0 = 0 :=
  ⟨TConf.out_reach (by decide +kernel), ⟨3, ⟨.strong 3 1, true⟩, rfl, ⟨_, 0, 2, rfl, rfl, by decide, by decide⟩, rfl, by decide +kernel⟩,
    ⟨⟨.strong 4 2, false⟩, 1, 2, rfl, rfl, by decide, by decide⟩, by decide +kernel, by decide +kernel⟩

/-- C67_leave: the next step of call 5, on thread 0, drops item 1 of slice 0. -/
example : TReach mutexGuard (fun c op => obeys c op = true) false (TConf.out mutexGuard obeys dropHome) ∧
    (TConf.out mutexGuard obeys dropHome).c.a.b.slot 0 1 = .live 6 ∧
    (TConf.out mutexGuard obeys (dropHome ++ [.run 5 1])).c.a.b.slot 0 1 = .dropped ∧ (TConf.out mutexGuard obeys dropHome).on 5 = 0 :=
  ⟨TConf.out_reach (by decide +kernel), rfl, rfl, by decide +kernel⟩

/-- C67_lost: if the destructor of that item panics, item 0 is lost. -/
example : ∃ c', (TConf.out mutexGuard obeys (dropHome ++ [.run 5 1])).c.panic 5 = some c' ∧
    (TConf.out mutexGuard obeys (dropHome ++ [.run 5 1])).c.a.b.slot 0 0 = .live 5 ∧ c'.a.b.slot 0 0 = .moved :=
  ⟨_, rfl, rfl, rfl⟩

/-- The rules of the examples are those of the theorems. -/
example : PStrict (fun c op => obeys c op = true) ∧ PTame (fun c op => obeys c op = true) := ⟨pstrict_obeys, pstrict_obeys.tame⟩

end Verif
