import Verif.Arc.Proofs.Stale
import Verif.Props.ArcUnwind
import Verif.Props.ArcRace
/-!
# C60, C61: `ArcSlice` and loads that do not find the latest value

For every number of threads, every interleaving and all panics of destructors, as in C53. In addition, loads of atomic variables may find
former values (`Arc/Stale.lean`). C60: all former values, except that `strong_count` (at arc_slice.rs:372, 373 and 396) does not find
a 1 that is out of date. C61 is about what happens if it does.
-/

namespace Verif
open Arc
open Spec (Side Slot)
variable {α : Type} {P : Rules α} {zst : Bool} {c c' : Conf α} {l : List (Conf α)}

/-- C60: whatever happens next, no freed node or memory is accessed, and no item is dropped or read that is not there. -/
theorem C60_safe (hP : STame P) (h : Conf.SReach P zst l c) {r : Except Rc.UB (Conf α)} (hs : Conf.PStep c r) : ∃ c', r = .ok c' := by
  cases hs with
  | step r hs =>
    cases hs with
    | run i => obtain ⟨c', e, _⟩ := (h.IA' hP).step (i := i); exact ⟨c', e⟩
    | start c' op e => exact ⟨c', rfl⟩
    | write k e j x hk hw => obtain ⟨c', e, _⟩ := (h.BI hP).write hk j x; exact ⟨c', e⟩
  | panic c' i e => exact ⟨c', rfl⟩

/-- C60: a load that finds a former value changes no item, no handle, no other call and no memory. -/
theorem C60_load {i : Nat} {o : Obs} (e : c.load i o = some c') : c'.a = c.a ∧ c'.hs = c.hs ∧ ∀ j, j ≠ i → c'.calls[j]? = c.calls[j]? := by
  simp only [Conf.load] at e
  repeat' split at e
  all_goals first | (cases e; done) | skip
  cases e
  exact ⟨rfl, rfl, fun j hj => List.getElem?_set_ne fun h => hj h.symm⟩

/-- C60 is about more than C53: loads may also find the latest value, as in all other properties. -/
theorem C60_latest {i : Nat} {pc : Pc α} {o : Obs} (hi : c.atPc i = some pc) (ho : c.a.holds pc = some o) (e : c.load i o = some c') :
    c.step i = .ok c' := load_latest hi ho e

/-- C60 is about more than C53: all states considered there are considered here. -/
theorem C60_covers (h : Conf.PReach P zst c) : ∃ l, Conf.SReach P zst l c := by
  induction h with
  | init => exact ⟨_, .init⟩
  | run _ i e ih => obtain ⟨l, ih⟩ := ih; exact ⟨_, .run ih i e⟩
  | start _ op hp e ih => obtain ⟨l, ih⟩ := ih; exact ⟨_, .start ih op hp e⟩
  | write _ k en j x hk hw e ih => obtain ⟨l, ih⟩ := ih; exact ⟨_, .write ih k en j x hk hw e⟩
  | panic _ i e ih => obtain ⟨l, ih⟩ := ih; exact ⟨_, .panic ih i e⟩

/-- C60: all items a handle shows are there. -/
theorem C60_shown_is_there (hP : STame P) (h : Conf.SReach P zst l c) {k b i : Nat} (hs : c.Shows k b i) :
    c.Present b i ∧ c.a.b.accessible b = true := shown_is_there (h.BI hP) hs

/-- C60: when no call is in flight, only those items are there that some handle shows. -/
theorem C60_alive_iff_shown (hP : STame P) (h : Conf.SReach P zst l c) (hq : c.Quiet) (b i : Nat) :
    c.Present b i ↔ ∃ k, c.Shows k b i := alive_iff_shown (h.BI hP) hq b i

/-- C60: what a step of a call does to an item. It leaves it alone, or puts it in (`new`), or drops it, at a time when no handle shows
it, or hands it out (`next`). So an item is dropped at most once. (Other than by a step, an item changes if it is written to by the owner of
a handle, or is lost by a panic.) -/
theorem C60_once (hP : STame P) (h : Conf.SReach P zst l c) {i : Nat} (e : c.step i = .ok c') (b j : Nat) :
    c'.a.b.slot b j = c.a.b.slot b j ∨
    (c.a.b.slot b j = .absent ∧ ∃ cl x xs, c.calls[i]? = some cl ∧ (cl.op = .new xs ∨ cl.op = .mutNew xs) ∧ x ∈ xs ∧
      c'.a.b.slot b j = .live x) ∨
    ((∃ x, c.a.b.slot b j = .live x) ∧ c'.a.b.slot b j = .dropped ∧ (∀ k, ¬ c.Shows k b j) ∧ ∀ k, ¬ c'.Shows k b j) ∨
    (∃ cl cl' x en k, c.calls[i]? = some cl ∧ cl.op = .next en k ∧ c.a.b.slot b j = .live x ∧ c'.a.b.slot b j = .moved ∧
      c'.calls[i]? = some cl' ∧ cl'.pc = .done (.item x)) := step_once (h.IA' hP) (h.nxtOp hP) e b j

/-- C60: a handle that is still there after a step of a call shows the same items as before. -/
theorem C60_handles_keep (hP : STame P) (h : Conf.SReach P zst l c) {i : Nat} (e : c.step i = .ok c') {k b j : Nat} (hs : c.Shows k b j) :
    c'.Shows k b j := handles_keep (h.IA' hP) e hs

/-- C60: whoever may write to an item is the only one who sees it. -/
theorem C60_exclusive (hP : SStrict P) (h : Conf.SReach P zst l c) {k k' b i : Nat}
    (hk : c.Exclusive k) (h1 : c.Shows k b i) (h2 : c.Shows k' b i) : k' = k := exclusive (h.IA hP) hk h1 h2

/-- C60: a unique slice is unique, even if `upgrade` overlaps `get_mut`. -/
theorem C60_unique (hP : STame P) (h : Conf.SReach P zst l c) {k k' b i : Nat} {r : Rc.Reg} {m : Bool}
    (hk : c.get k = some ⟨.uniq r, m⟩) (h1 : c.Shows k b i) (h2 : c.Shows k' b i) : k' = k := exclusive_own (h.BI hP) hk h1 h2

/-- C60: once all handles are gone and no call is in flight, all items have been dropped (or moved out, or lost by a panic), and all
memory has been released (other than the boxes of C40). -/
theorem C60_released (hP : STame P) (h : Conf.SReach P zst l c) (hq : c.Quiet) (hn : c.NoHandles) :
    (∀ b i, ¬ c.Present b i) ∧ (∀ b, c.a.b.sk.mem b = false) ∧ (∀ x, c.a.b.sk.node x = none ∧ c.a.b.strong x = 0) ∧
    (∀ g, c.a.guard g = none ∧ c.a.gS g = 0) ∧ ∀ g, c.a.gW g = if g < c.a.ng then 1 else 0 := released (h.IA' hP) hq hn

/-- C60: there are no deadlocks. -/
theorem C60_no_deadlock (hP : STame P) (h : Conf.SReach P zst l c) (hq : ¬ c.Quiet) : ∃ i c', c.step i = .ok c' ∧ c' ≠ c :=
  no_deadlock (h.IA' hP) hq

/-- Rules under which nothing overlaps `get_mut` are rules under which nothing overlaps `into_mut`. -/
theorem Arc.SStrict.tame (h : SStrict P) : STame P := by
  intro zst l c op hc hp
  have := h zst l c op hc hp
  cases op with
  | upgrade k =>
    simp only [Conf.strict, Conf.careful] at this ⊢
    cases hk : c.node k <;> simp_all
  | _ => simp_all [Conf.strict, Conf.careful]

/-- The rules themselves. -/
theorem sstrict_strict : SStrict (fun (c : Conf α) op => c.strict op = true) := fun _ _ _ _ _ h => h

theorem stame_careful : STame (fun (c : Conf α) op => c.careful op = true) := fun _ _ _ _ _ h => h

/-! ## Non-vacuity -/

/-- What to do next: start a call, let call `i` make `n` steps, or let call `i` load the value a variable had `n + 1` steps ago. -/
inductive LAct (α : Type) where
  | op (p : Op α)
  | run (i n : Nat)
  | load (i n : Nat)

def lrun (i : Nat) : Nat → List (Conf α) × Conf α → Option (List (Conf α) × Conf α)
  | 0, s => some s
  | n + 1, s => match s.2.step i with
    | .ok c => lrun i n (s.2 :: s.1, c)
    | .error _ => none

def lact (p : Conf α → Op α → Bool) (s : List (Conf α) × Conf α) : LAct α → Option (List (Conf α) × Conf α)
  | .op q => if p s.2 q then (s.2.start q).map fun c => (s.2 :: s.1, c) else none
  | .run i n => lrun i n s
  | .load i n => match s.2.atPc i, s.1[n]? with
    | some pc, some c0 => match c0.a.holds pc with
      | some o => if pc.stale o then (s.2.load i o).map fun c => (s.2 :: s.1, c) else none
      | none => none
    | _, _ => none

def lexec (p : Conf α → Op α → Bool) (s : List (Conf α) × Conf α) (as : List (LAct α)) : Option (List (Conf α) × Conf α) :=
  as.foldlM (lact p) s

theorem lexec_reach {p : Conf α → Op α → Bool} : ∀ {as : List (LAct α)} {s s' : List (Conf α) × Conf α},
    Conf.SReach (fun c op => p c op = true) zst s.1 s.2 → lexec p s as = some s' → Conf.SReach (fun c op => p c op = true) zst s'.1 s'.2 := by
  have run : ∀ {n i : Nat} {s s' : List (Conf α) × Conf α}, Conf.SReach (fun c op => p c op = true) zst s.1 s.2 → lrun i n s = some s' →
      Conf.SReach (fun c op => p c op = true) zst s'.1 s'.2 := by
    intro n i
    induction n with
    | zero => intro s s' h e; cases e; exact h
    | succ n ih =>
      intro s s' h e
      simp only [lrun] at e
      split at e
      · next c hc => exact ih (.run h i hc) e
      · cases e
  intro as
  induction as with
  | nil => intro s s' h e; cases e; exact h
  | cons a as ih =>
    intro s s' h e
    simp only [lexec, List.foldlM_cons] at e
    obtain ⟨s1, e1, e2⟩ := Option.bind_eq_some_iff.1 e
    refine ih ?_ e2
    cases a with
    | op q =>
      simp only [lact] at e1
      split at e1
      · next hp => obtain ⟨c, hc, rfl⟩ := Option.map_eq_some_iff.1 e1; exact .start h q hp hc
      · cases e1
    | run i n => exact run h e1
    | load i n =>
      simp only [lact] at e1
      split at e1
      · next pc c0 hi h0 =>
        split at e1
        · next o ho =>
          split at e1
          · next hs =>
            obtain ⟨c, hc, rfl⟩ := Option.map_eq_some_iff.1 e1
            exact .load h i pc o c0 (List.mem_of_getElem? h0) hi ho hs hc
          · cases e1
        · cases e1
      · cases e1

def lafter (as : List (LAct Nat)) : List (Conf Nat) × Conf Nat := (lexec (fun c op => c.strict op) ([], Conf.init false) as).getD ([], Conf.init false)

theorem lafter_reach (as : List (LAct Nat)) : Conf.SReach (fun c op => c.strict op = true) false (lafter as).1 (lafter as).2 := by
  simp only [lafter]
  cases h : lexec (fun c op => c.strict op) ([], Conf.init false) as with
  | none => exact .init
  | some s => exact lexec_reach .init h

/-- A half is made. Somebody else makes the half again, and the load at arc_slice.rs:133 finds null, that at 287 the first
`Weak<DataGuard>`. Neither `compare_and_swap` succeeds; in the end both get the same half. -/
def staleKid : List (LAct Nat) :=
  [.op (.new [1, 2, 3, 4]), .run 0 6, .op (.cloneSide .L 0), .run 1 13, .op (.cloneSide .L 0), .run 2 1, .load 2 14, .run 2 5, .load 2 12,
   .run 2 10]

/-- A slice is cloned, the clone is dropped, and `get_mut` refuses because `strong_count` still finds 2. -/
def staleCount : List (LAct Nat) :=
  [.op (.new [1, 2, 3, 4]), .run 0 6, .op (.clone 0), .run 1 2, .op (.drop 1), .run 2 3, .op (.getMut 0), .run 3 3, .load 3 6, .run 3 2]

def displays (c : Conf α) (k b i : Nat) : Bool :=
  match c.get k with
  | some e => match Conf.range c.a e.h with
    | .ok (some (b', off, len)) => b' == b && decide (off ≤ i) && decide (i < off + len)
    | _ => false
  | none => false

theorem shows_of {k b i : Nat} (h : displays c k b i = true) : c.Shows k b i := by
  simp only [displays] at h
  split at h
  · next e hk =>
    split at h
    · next b' off len hr =>
      simp only [Bool.and_eq_true, decide_eq_true_eq, beq_iff_eq] at h
      obtain ⟨⟨rfl, h2⟩, h3⟩ := h
      exact ⟨e, off, len, hk, hr, h2, h3⟩
    · cases h
  · cases h

theorem quiet_of (h : c.calls.all Call.fin = true) : c.Quiet := by simpa [Conf.Quiet] using h

example : (lafter staleKid).2.Quiet ∧ (lafter staleKid).2.get 1 = some ⟨.strong 2 1, false⟩ ∧ (lafter staleKid).2.get 2 = some ⟨.strong 2 1, false⟩ ∧
    (lafter staleKid).2.Shows 2 0 1 ∧ (lafter staleKid).2.Present 0 1 ∧ (lafter staleKid).2.a.nbox = 4 ∧
    ∀ k, (lafter staleKid).2.Shows k 0 1 → ¬ (lafter staleKid).2.Exclusive k :=
  have h : (lafter staleKid).2.Shows 2 0 1 := shows_of (by decide +kernel)
  have h1 : (lafter staleKid).2.Shows 1 0 1 := shows_of (by decide +kernel)
  ⟨quiet_of (by decide +kernel), by decide +kernel, by decide +kernel, h,
    (C60_shown_is_there sstrict_strict.tame (lafter_reach staleKid) h).1, by decide +kernel, fun k hk he => by
    have e1 := C60_exclusive sstrict_strict (lafter_reach staleKid) he hk h
    have e2 := C60_exclusive sstrict_strict (lafter_reach staleKid) he hk h1
    omega⟩

example : (lafter staleCount).2.Quiet ∧ (∃ cl, (lafter staleCount).2.calls[3]? = some cl ∧ cl.pc = .done .none) ∧
    (lafter staleCount).2.get 2 = some ⟨.strong 1 0, false⟩ := ⟨quiet_of (by decide +kernel), ⟨_, rfl, rfl⟩, by decide +kernel⟩

/-! ## Which former values -/

variable {o : Ords} {v : VConf α} {lv : List (VConf α × Nat)}

/-- C60 is about more than what the memory model allows: every execution in which each load finds a value that it did not know to be
out of date, other than a 1 found by `strong_count`, is considered. -/
theorem C60_erase (h : VConf.SReach o (fun pc ob => pc.stale ob = true) P zst lv v) :
    ∃ l, Conf.SReach P zst l v.c ∧ ∀ u ∈ lv, u.1.c ∈ l := by
  induction h with
  | init => exact ⟨[], .init, by simp⟩
  | run h i e ih =>
    obtain ⟨l, h1, h2⟩ := ih
    refine ⟨_, .run h1 i (VConf.step_erase e), fun u hu => ?_⟩
    rcases List.mem_cons.1 hu with rfl | hu
    · exact List.mem_cons_self ..
    · exact List.mem_cons_of_mem _ (h2 u hu)
  | start h op X hX hp e ih =>
    obtain ⟨l, h1, h2⟩ := ih
    simp only [VConf.start] at e
    split at e
    · cases e
    · next hc => cases e; exact ⟨_, .start h1 op hp hc, fun u hu => List.mem_cons_of_mem _ (h2 u hu)⟩
  | load h i n pc x ob u hu hm hi hx ho hs e ih =>
    obtain ⟨l, h1, h2⟩ := ih
    refine ⟨_, .load h1 i pc ob u.1.c (h2 u (List.mem_of_getElem? hu)) hi ho hs e, fun w hw => ?_⟩
    rcases List.mem_cons.1 hw with rfl | hw
    · exact List.mem_cons_self ..
    · exact List.mem_cons_of_mem _ (h2 w hw)

/-- C61, the part that holds: if each load finds a value that it does not know to be out of date, and `strong_count` does not find a 1
that is out of date, then whoever may write to an item is the only one who sees it. Missing: executions where `strong_count` finds
a 1 that is out of date. Of these it is false: see `C61_fails_into_mut` and `C61_fails_get_mut`. -/
theorem C61_partial (hP : SStrict P) (h : VConf.SReach o (fun pc ob => pc.stale ob = true) P zst lv v) {k k' b i : Nat}
    (hk : v.c.Exclusive k) (h1 : v.c.Shows k b i) (h2 : v.c.Shows k' b i) : k' = k := by
  obtain ⟨l, hl, _⟩ := C60_erase h
  exact C60_exclusive hP hl hk h1 h2

/-- What to do next: start a call, let call `i` make `n` steps, or let call `i` load while it misses the last `n + 1` steps. -/
inductive MAct (α : Type) where
  | op (p : Op α)
  | run (i n : Nat)
  | load (i n : Nat)

def mrun (o : Ords) (i : Nat) : Nat → List (VConf α × Nat) × VConf α → Option (List (VConf α × Nat) × VConf α)
  | 0, s => some s
  | n + 1, s => match s.2.step o i with
    | .ok v => mrun o i n ((s.2, i) :: s.1, v)
    | .error _ => none

def mact (o : Ords) (S : Pc α → Obs → Bool) (s : List (VConf α × Nat) × VConf α) : MAct α → Option (List (VConf α × Nat) × VConf α)
  | .op q => (s.2.start q []).map fun v => (s.1, v)
  | .run i n => mrun o i n s
  | .load i n => match s.2.c.atPc i, s.1[n]? with
    | some pc, some u => match pc.var, u.1.c.a.holds pc with
      | some x, some ob => if (s.1.take (n + 1)).all (s.2.misses o i x) && S pc ob then
          (s.2.c.load i ob).map fun c => ((s.2, i) :: s.1, { s.2 with c := c }) else none
      | _, _ => none
    | _, _ => none

def mexec (o : Ords) (S : Pc α → Obs → Bool) (s : List (VConf α × Nat) × VConf α) (as : List (MAct α)) : Option (List (VConf α × Nat) × VConf α) :=
  as.foldlM (mact o S) s

theorem mexec_reach {Q : Op α → Prop} {S : Pc α → Obs → Bool} {S' : Pc α → Obs → Prop} (hS : ∀ pc ob, S pc ob = true → S' pc ob) : ∀ {as : List (MAct α)} {s s' : List (VConf α × Nat) × VConf α}, (∀ p, MAct.op p ∈ as → Q p) →
    VConf.SReach o S' (only Q) zst s.1 s.2 → mexec o S s as = some s' → VConf.SReach o S' (only Q) zst s'.1 s'.2 := by
  have run : ∀ {n i : Nat} {s s' : List (VConf α × Nat) × VConf α}, VConf.SReach o S' (only Q) zst s.1 s.2 → mrun o i n s = some s' →
      VConf.SReach o S' (only Q) zst s'.1 s'.2 := by
    intro n i
    induction n with
    | zero => intro s s' h e; cases e; exact h
    | succ n ih =>
      intro s s' h e
      simp only [mrun] at e
      split at e
      · next c hc => exact ih (.run h i hc) e
      · cases e
  intro as
  induction as with
  | nil => intro s s' _ h e; cases e; exact h
  | cons a as ih =>
    intro s s' hq h e
    simp only [mexec, List.foldlM_cons] at e
    obtain ⟨s1, e1, e2⟩ := Option.bind_eq_some_iff.1 e
    refine ih (fun p hp => hq p (List.mem_cons_of_mem _ hp)) ?_ e2
    cases a with
    | op q =>
      obtain ⟨c, hc, rfl⟩ := Option.map_eq_some_iff.1 e1
      exact .start h q [] (fun _ h => by cases h) (hq q (List.mem_cons_self ..)) hc
    | run i n => exact run h e1
    | load i n =>
      simp only [mact] at e1
      split at e1
      · next pc u hi hu =>
        split at e1
        · next x ob hx ho =>
          split at e1
          · next hm =>
            obtain ⟨c, hc, rfl⟩ := Option.map_eq_some_iff.1 e1
            rw [Bool.and_eq_true] at hm
            exact .load h i n pc x ob u hu hm.1 hi hx ho (hS _ _ hm.2) hc
          · cases e1
        · cases e1
      · cases e1

/-- The left half of an array is made (handle 1). Another thread makes the left half again (2), drops the array, makes the left half of the
half (3), and drops handle 2. -/
def quarter : List (MAct Nat) :=
  [.op (.new [1, 2, 3, 4]), .run 0 6, .op (.cloneSide .L 0), .run 1 13, .op (.cloneSide .L 0), .run 2 12, .op (.drop 0), .run 3 12,
   .op (.cloneSide .L 2), .run 4 14, .op (.drop 2), .run 5 4]

/-- Then the first thread calls `into_mut` on handle 1. `strong_count` finds 1, as it was before all that the other thread did. -/
def staleInto : List (MAct Nat) := quarter ++ [.op (.intoMut 1), .run 6 1, .load 6 38, .run 6 7]

/-- … or `get_mut`. -/
def staleGet : List (MAct Nat) := quarter ++ [.op (.getMut 1), .run 6 3, .load 6 40, .run 6 3]

/-- … and drops the result of `into_mut`. -/
def staleDrop : List (MAct Nat) := staleInto ++ [.op (.drop 4), .run 7 1]

theorem stale_of {as : List (MAct Nat)} {β : Type} {f : Conf Nat → β} {y : β} {S : Pc Nat → Obs → Bool} {S' : Pc Nat → Obs → Prop}
    (hS : ∀ pc ob, S pc ob = true → S' pc ob) (hn : ∀ p, MAct.op p ∈ as → p.NoWeak)
    (h : ((mexec o S ([], VConf.init false) as).map fun s => f s.2.c) = some y) :
    ∃ lv v, VConf.SReach o S' (only Op.NoWeak) false lv v ∧ f v.c = y := by
  cases hv : mexec o S ([], VConf.init false) as with
  | none => rw [hv] at h; cases h
  | some s =>
    rw [hv] at h
    exact ⟨s.1, s.2, mexec_reach hS hn .init hv, Option.some.inj h⟩

/-- Here `get_mut` on the half finds an old weak count, and then an old strong count of the guard, 2. So it is refused, and the half is
dropped. Then `get_mut` on the quarter is granted. -/
def staleRefused : List (MAct Nat) :=
  quarter ++ [.op (.getMut 1), .run 6 1, .load 6 42, .run 6 1, .load 6 39, .run 6 9, .op (.drop 4), .run 7 5, .op (.getMut 3), .run 8 11]

/-- The hypotheses of `C61_partial` are met, with loads of old values. -/
example (o : Ords) : ∃ lv v, VConf.SReach (α := Nat) o (fun pc ob => pc.stale ob = true) (only Op.NoWeak) false lv v ∧
    v.c.Exclusive 5 ∧ v.c.Shows 5 0 0 ∧ ∀ k, v.c.Shows k 0 0 → k = 5 := by
  obtain ⟨lv, v, h, e⟩ := stale_of (o := o) (S := Pc.stale) (S' := fun pc ob => pc.stale ob = true) (fun _ _ h => h) (as := staleRefused)
    (f := fun c => (c.get 5, displays c 5 0 0)) (y := (some ⟨.strong 3 2, true⟩, true))
    (by simp [staleRefused, quarter, Op.NoWeak]) (by obtain ⟨a, b, c, d⟩ := o; cases a <;> cases b <;> cases c <;> cases d <;> decide +kernel)
  simp only [Prod.mk.injEq] at e
  have hS : SStrict (α := Nat) (only Op.NoWeak) := sstrict_noUpgrade fun op h => by cases op <;> simp_all [Op.NoWeak, Op.NoUpgrade]
  exact ⟨lv, v, h, ⟨_, e.1, rfl⟩, shows_of e.2, fun k hk => C61_partial hS h ⟨_, e.1, rfl⟩ (shows_of e.2) hk⟩

/-- C61 is false of `into_mut`, whatever the orderings inside of `std` are, and even if there is no `WeakSlice` at all: the half and
the quarter show the same item, although the half has become a unique slice. -/
theorem C61_fails_into_mut (o : Ords) : ∃ lv v, VConf.SReach (α := Nat) o (fun _ _ => True) (only Op.NoWeak) false lv v ∧ v.c.Quiet ∧
    (∃ r, v.c.get 4 = some ⟨.uniq r, false⟩) ∧ v.c.Shows 4 0 0 ∧ v.c.Shows 3 0 0 := by
  obtain ⟨lv, v, h, e⟩ := stale_of (o := o) (S := fun _ _ => true) (fun _ _ _ => trivial) (as := staleInto)
    (f := fun c => (c.calls.all Call.fin, c.get 4, displays c 4 0 0, displays c 3 0 0)) (y := (true, some ⟨.uniq ⟨0, 0, 2, some 0⟩, false⟩, true, true))
    (by simp [staleInto, quarter, Op.NoWeak]) (by obtain ⟨a, b, c, d⟩ := o; cases a <;> cases b <;> cases c <;> cases d <;> decide +kernel)
  simp only [Prod.mk.injEq] at e
  exact ⟨lv, v, h, quiet_of e.1, ⟨_, e.2.1⟩, shows_of e.2.2.1, shows_of e.2.2.2⟩

/-- C61 is false of `get_mut`, likewise: while `get_mut` on the half gives exclusive access, the quarter shows the same item. -/
theorem C61_fails_get_mut (o : Ords) : ∃ lv v, VConf.SReach (α := Nat) o (fun _ _ => True) (only Op.NoWeak) false lv v ∧ v.c.Quiet ∧
    v.c.Exclusive 4 ∧ v.c.Shows 4 0 0 ∧ v.c.Shows 3 0 0 := by
  obtain ⟨lv, v, h, e⟩ := stale_of (o := o) (S := fun _ _ => true) (fun _ _ _ => trivial) (as := staleGet)
    (f := fun c => (c.calls.all Call.fin, c.get 4, displays c 4 0 0, displays c 3 0 0)) (y := (true, some ⟨.strong 2 1, true⟩, true, true))
    (by simp [staleGet, quarter, Op.NoWeak]) (by obtain ⟨a, b, c, d⟩ := o; cases a <;> cases b <;> cases c <;> cases d <;> decide +kernel)
  simp only [Prod.mk.injEq] at e
  exact ⟨lv, v, h, quiet_of e.1, ⟨_, e.2.1, rfl⟩, shows_of e.2.2.1, shows_of e.2.2.2⟩

/-- … and then the other thread sees an item that has been dropped: all without any `unsafe` code of theirs. -/
theorem C61_fails_dropped (o : Ords) : ∃ lv v, VConf.SReach (α := Nat) o (fun _ _ => True) (only Op.NoWeak) false lv v ∧
    v.c.Shows 3 0 0 ∧ v.c.a.b.slot 0 0 = .dropped := by
  obtain ⟨lv, v, h, e⟩ := stale_of (o := o) (S := fun _ _ => true) (fun _ _ _ => trivial) (as := staleDrop)
    (f := fun c => (displays c 3 0 0, decide (c.a.b.slot 0 0 = .dropped))) (y := (true, true))
    (by simp [staleDrop, staleInto, quarter, Op.NoWeak]) (by obtain ⟨a, b, c, d⟩ := o; cases a <;> cases b <;> cases c <;> cases d <;> decide +kernel)
  simp only [Prod.mk.injEq, decide_eq_true_eq] at e
  exact ⟨lv, v, h, shows_of e.1, e.2⟩

end Verif
