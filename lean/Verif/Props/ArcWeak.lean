import Verif.Arc.Proofs.Weak2
import Verif.Arc.Proofs.SeqQuiet
import Verif.Props.ArcRelease
/-!
# C63: memory blocks are kept as long as they are needed, and returned once

With the weak counters of `Arc/Weak.lean`. Destructors may panic. `PTame P` : `upgrade` does not overlap `into_mut` on something larger.
-/

namespace Verif
open Arc
open Rc (Node)
variable {α : Type} {P : Rules α} {zst : Bool} {w w' : WConf α}

/-- C63, no access to a block that has been returned, and no block is returned twice: at any time any call in flight can make its step, and any
`Weak` that has been given up can be dropped, without undefined behaviour. -/
theorem C63_safe (hP : PTame P) (h : WConf.Reach P zst w) :
    (∀ i, ∃ w', w.step i = .ok w') ∧ ∀ j, ∃ w', w.release j = .ok w' := by
  have L := h.ledger hP
  exact ⟨fun i => (L.step (h.preach.IA' hP) i).imp fun _ h => h.1, fun j => (L.release j).imp fun _ h => h.1⟩

/-- C63, blocks are kept: whatever a handle needs is there. -/
theorem C63_kept (hP : PTame P) (h : WConf.Reach P zst w) {k : Nat} {e : Ent} (hk : w.c.get k = some e) :
    ∀ o ∈ e.h.blocks, w.there o = true := by
  have L := h.ledger hP
  have A := h.preach.IA' hP
  have B := A.bi
  have rf : ∀ x, x ∈ aS w.c.T → w.there (.node x) = true := fun x hx => by
    obtain ⟨n, hn⟩ := B.heap.live hx
    exact L.live hn
  obtain ⟨hh, b⟩ := e
  intro o ho
  cases hh with
  | strong d g =>
    simp only [Handle.blocks, List.mem_cons, List.not_mem_nil, or_false] at ho
    rcases ho with rfl | rfl
    · exact rf d (List.mem_flatMap.2 ⟨.ref d, Conf.get_tok' hk (by simp [entT]), by simp⟩)
    · obtain ⟨_, _, h⟩ := BI_gd B.gi (g := g) (Conf.get_tok' hk (by simp [entT]))
      exact there_gS h
  | weak d g =>
    simp only [Handle.blocks, List.mem_append, List.mem_map, Option.mem_toList] at ho
    rcases ho with ⟨x, rfl, rfl⟩ | ⟨x, rfl, rfl⟩
    · exact L.weak hk
    · exact there_gW (BI_wk B.gi (Conf.get_tok' hk (by simp [entT])))
  | uniq r =>
    simp only [Handle.blocks, List.mem_map, Option.mem_toList] at ho
    obtain ⟨x, hx, rfl⟩ := ho
    exact rf x (List.mem_flatMap.2 ⟨.reg r, Conf.get_tok' hk (by simp [entT]), by simp [hx]⟩)

/-- C63, a block that has been returned stays so: whatever happens next, it is not there (and so by `C63_safe` nobody accesses it, by
`C63_kept` no handle needs it). -/
theorem C63_once (hP : PTame P) (h : WConf.Reach P zst w) (r : WConf.Runs P w w') {x : Nat} (hx : x < w.c.a.b.sk.next)
    (h0 : w.there (.node x) = false) : w'.there (.node x) = false := by
  simp only [WConf.there, bne_eq_false_iff_eq] at h0 ⊢
  have : WConf.Reach P zst w' ∧ x < w'.c.a.b.sk.next ∧ w'.wk x = 0 := by
    induction r with
    | refl => exact ⟨h, hx, h0⟩
    | snoc r s ih =>
      obtain ⟨h1, h2, h3⟩ := ih
      obtain ⟨_, h4, h5⟩ := (h1.ledger hP).run (h1.preach.IA' hP) s
      exact ⟨.snoc h1 s, Nat.lt_of_lt_of_le h2 h4, h5 x h2 h3⟩
  exact this.2.2

namespace Arc

theorem quiet_hold {c : Conf α} (hq : c.Quiet) : c.calls.flatMap (callHold c.a) = [] := by
  rw [List.flatMap_eq_nil_iff]
  intro cl hcl
  obtain ⟨r, h1, h2⟩ := fin_pc (hq cl hcl)
  simp only [callHold, h1, pcHold]

theorem mem_slotW {c : Conf α} {x : Nat} : x ∈ c.hs.flatMap slotW ↔ c.WeakTo x := by
  constructor
  · intro h
    obtain ⟨o, ho, hx⟩ := List.mem_flatMap.1 h
    cases o with
    | none => simp [slotW] at hx
    | some e =>
      obtain ⟨m, hm⟩ := List.getElem?_of_mem ho
      obtain ⟨hh, b⟩ := e
      cases hh with
      | weak d g =>
        simp only [slotW, entW, Option.mem_toList] at hx
        subst hx
        exact ⟨m, g, b, by simp [Conf.get, hm]⟩
      | _ => simp [slotW, entW] at hx
  · rintro ⟨k, g, b, hk⟩
    exact List.mem_flatMap.2 ⟨_, Conf.get_mem hk, by simp [slotW, entW]⟩

theorem only_weak_none {c : Conf α} (A : c.IA false) (hq : c.Quiet) (ho : c.OnlyWeak) (x : Nat) : c.a.b.sk.node x = none := by
  have hT : ∀ t ∈ c.T, t.S = [] ∧ t.G = [] := by
    intro t ht
    obtain ⟨m, e, h1, h2⟩ := quiet_tok hq ht
    obtain ⟨d, g, hh⟩ := ho m e h1
    simp only [entT, hh, List.mem_map] at h2
    obtain ⟨_, _, rfl⟩ := h2
    exact ⟨rfl, rfl⟩
  have hS : aS c.T = [] := List.flatMap_eq_nil_iff.2 fun t ht => (hT t ht).1
  have hG : aG c.T = [] := List.flatMap_eq_nil_iff.2 fun t ht => (hT t ht).2
  have I := A.bi.heap
  have := I.good
  rw [hS, hG] at this
  exact (Rc.Inv.nothing (h := c.a.b) ⟨this, fun t ht => absurd ht (List.not_mem_nil), I.bufs⟩).1 x

end Arc

/-- C63, exactly what is needed is kept: when no call is in flight and all given up `Weak`s have been dropped, a block is there exactly if
its value is still alive, if it is the parent of slice data that is still alive, or if a `WeakSlice` refers to it. -/
theorem C63_rest (hP : PTame P) (h : WConf.Reach P zst w) (hq : w.c.Quiet) (hd : w.due = []) (x : Nat) :
    w.there (.node x) = true ↔
      (∃ n, w.c.a.b.sk.node x = some n) ∨ (∃ y n, w.c.a.b.sk.node y = some n ∧ w.c.a.par y = some x) ∨ w.c.WeakTo x := by
  have L := h.ledger hP
  constructor
  · intro ht
    have h1 := L.led x
    simp only [WConf.there, bne_iff_ne] at ht
    rw [hd, Conf.led, quiet_hold hq] at h1
    simp only [List.count_nil, Nat.add_zero, heapW, hpW] at h1
    by_cases h2 : (w.c.a.b.sk.node x).isSome
    · exact .inl (Option.isSome_iff_exists.1 h2)
    · rw [if_neg h2] at h1
      by_cases h3 : 0 < (w.c.hs.flatMap slotW).count x
      · exact .inr (.inr (mem_slotW.1 (List.count_pos_iff.1 h3)))
      · obtain ⟨y, v, _, hy, hv⟩ := prefs_mem (f := fun z => (w.c.a.b.sk.node z).map fun _ => (⟨w.c.a.par z, false, false⟩ : GuardV)) (g := x)
          (n := w.c.a.b.sk.next) (by omega)
        cases hn : w.c.a.b.sk.node y with
        | none => simp only [hn, Option.map_none, reduceCtorEq] at hy
        | some n =>
          simp only [hn, Option.map_some, Option.some.injEq] at hy
          subst hy
          exact .inr (.inl ⟨y, n, hn, hv⟩)
  · rintro (⟨n, hn⟩ | ⟨y, n, hn, hp⟩ | ⟨k, g, b, hk⟩)
    · exact L.live hn
    · exact L.up (h.preach.BI hP).par hn hp
    · exact L.weak hk

/-- C63, when only `WeakSlice`s are left: the blocks that are there are those that they refer to. -/
theorem C63_only_weak (hP : PTame P) (h : WConf.Reach P zst w) (hq : w.c.Quiet) (hd : w.due = []) (ho : w.c.OnlyWeak) (x : Nat) :
    w.there (.node x) = true ↔ w.c.WeakTo x := by
  have hn := only_weak_none (h.preach.IA' hP) hq ho
  rw [C63_rest hP h hq hd x]
  simp [hn]

/-- C63, when no handle is left: all blocks of slice data and of memory owners have been returned. (Those of guards are not: `C40_fails`.) -/
theorem C63_gone (hP : PTame P) (h : WConf.Reach P zst w) (hq : w.c.Quiet) (hd : w.due = []) (hn : w.c.NoHandles) (x : Nat) :
    w.there (.node x) = false := by
  have := C63_only_weak hP h hq hd (fun k e hk => by rw [hn k] at hk; cases hk) x
  cases ht : w.there (.node x) with
  | false => rfl
  | true =>
    obtain ⟨k, g, b, hk⟩ := this.1 ht
    rw [hn k] at hk; cases hk

/-- C63, given up `Weak`s can all be dropped, at any time. -/
theorem C63_drained (hP : PTame P) (h : WConf.Reach P zst w) : ∃ w', WConf.Runs P w w' ∧ w'.c = w.c ∧ w'.due = [] := by
  generalize hn : w.due.length = n
  induction n generalizing w with
  | zero => exact ⟨w, .refl w, rfl, List.eq_nil_of_length_eq_zero hn⟩
  | succ n ih =>
    obtain ⟨w1, e, L1, hc, _⟩ := (h.ledger hP).release 0
    have hl : w1.due.length = n := by
      cases hd : w.due with
      | nil => rw [hd] at hn; cases hn
      | cons x l =>
        rw [hd] at hn
        simp only [WConf.release, hd, List.getElem?_cons_zero] at e
        split at e
        · cases e
        · cases e; simpa using hn
    obtain ⟨w2, r, h1, h2⟩ := ih (w := w1) (.snoc h (.release 0 e)) hl
    have : ∀ {u v : WConf α}, WConf.Runs P u v → ∀ {t}, WConf.Run P t u → WConf.Runs P t v := by
      intro u v r
      induction r with
      | refl => intro t s; exact .snoc (.refl t) s
      | snoc _ s ih => intro t s'; exact .snoc (ih s') s
    exact ⟨w2, this r (.release 0 e), h1.trans hc, h2⟩

/-- C63, the weak counters do not change what programs do: without them, the same states come about. -/
theorem C63_same (hP : PTame P) (c : Conf α) : Conf.PReach P zst c ↔ ∃ w, WConf.Reach P zst w ∧ w.c = c :=
  ⟨fun h => h.weak hP, fun ⟨_, h, e⟩ => e ▸ h.preach⟩

/-! ## Programs that meet the hypotheses -/

namespace Arc
namespace WConf

theorem Runs.trans {a b c : WConf α} (h1 : WConf.Runs P a b) (h2 : WConf.Runs P b c) : WConf.Runs P a c := by
  induction h2 with
  | refl => exact h1
  | snoc _ s ih => exact .snoc ih s

theorem steps_runs {i n : Nat} : ∀ {w w' : WConf α}, w.steps i n = .ok w' → WConf.Runs P w w' := by
  induction n with
  | zero => intro w w' e; cases e; exact .refl _
  | succ n ih =>
    intro w w' e
    obtain ⟨w1, e1, e2⟩ := bind_ok e
    exact (WConf.Runs.snoc (.refl w) (.run i e1)).trans (ih e2)

theorem flush_runs {n : Nat} : ∀ {w w' : WConf α}, w.flush n = .ok w' → WConf.Runs P w w' := by
  induction n with
  | zero => intro w w' e; cases e; exact .refl _
  | succ n ih =>
    intro w w' e
    obtain ⟨w1, e1, e2⟩ := bind_ok e
    exact (WConf.Runs.snoc (.refl w) (.release 0 e1)).trans (ih e2)

theorem exec_runs {p : Conf α → Op α → Bool} {as : List (WAct α)} :
    ∀ {w w' : WConf α}, w.exec p as = some w' → WConf.Runs (fun c op => p c op = true) w w' := by
  induction as with
  | nil => intro w w' e; cases e; exact .refl _
  | cons a as ih =>
    intro w w' e
    cases a with
    | op o =>
      simp only [WConf.exec] at e
      split at e
      · next hp =>
        split at e
        · next c' hc => exact (WConf.Runs.snoc (.refl w) (.start o hp hc)).trans (ih e)
        · cases e
      · cases e
    | run i n =>
      simp only [WConf.exec] at e
      split at e
      · next w1 h1 => exact (steps_runs h1).trans (ih e)
      · cases e
    | panic i =>
      simp only [WConf.exec] at e
      split at e
      · next c' hc => exact (WConf.Runs.snoc (.refl w) (.panic i hc)).trans (ih e)
      · cases e
    | flush =>
      simp only [WConf.exec] at e
      split at e
      · next w1 h1 => exact (flush_runs h1).trans (ih e)
      · cases e

end WConf

/-- A slice of two items is made, its left half taken, and a `WeakSlice` of the whole; the whole is dropped. -/
def halfLeft : List (WAct Nat) :=
  [.op (.new [1, 2]), .run 0 8, .op (.cloneSide .L 0), .run 1 16, .op (.downgrade 0), .run 2 3, .op (.drop 0), .run 3 12, .flush]

/-- Then the left half is dropped. -/
def onlyWeakLeft : List (WAct Nat) := halfLeft ++ [.op (.drop 1), .run 4 30, .flush]

/-- Then the `WeakSlice` is dropped. -/
def nothingLeft : List (WAct Nat) := onlyWeakLeft ++ [.op (.drop 2), .run 5 2, .flush]

def wafter (as : List (WAct Nat)) : WConf Nat := match (WConf.init false).exec (fun c op => c.careful op) as with
  | some w => w
  | none => WConf.init false

theorem wafter_reach {as : List (WAct Nat)} (h : ((WConf.init false).exec (fun c op => c.careful op) as).isSome = true) :
    WConf.Reach (fun c op => c.careful op = true) false (wafter as) := by
  obtain ⟨w, hw⟩ := Option.isSome_iff_exists.1 h
  rw [wafter, hw]
  exact WConf.exec_runs hw

theorem halfLeft_reach : WConf.Reach (fun c op => c.careful op = true) false (wafter halfLeft) := wafter_reach (by decide +kernel)
theorem onlyWeakLeft_reach : WConf.Reach (fun c op => c.careful op = true) false (wafter onlyWeakLeft) := wafter_reach (by decide +kernel)
theorem nothingLeft_reach : WConf.Reach (fun c op => c.careful op = true) false (wafter nothingLeft) := wafter_reach (by decide +kernel)

/-- Node 0 is the `SliceAlloc`, node 1 the whole, node 2 the left half. The whole is gone, but not its block: it is both the parent of the left
half and what the `WeakSlice` refers to. -/
example : (wafter halfLeft).c.Quiet ∧ (wafter halfLeft).due = [] ∧ (wafter halfLeft).c.a.b.sk.node 1 = none ∧ (wafter halfLeft).wk 1 = 2 ∧
    (wafter halfLeft).c.a.par 2 = some 1 ∧ (wafter halfLeft).c.a.b.sk.node 2 ≠ none ∧ (wafter halfLeft).there (.node 1) = true :=
  ⟨by unfold Conf.Quiet; decide +kernel, by decide +kernel, by decide +kernel, by decide +kernel, by decide +kernel, by decide +kernel, by decide +kernel⟩

/-- Only the block of the whole is left. -/
example : (wafter onlyWeakLeft).c.Quiet ∧ (wafter onlyWeakLeft).due = [] ∧ (wafter onlyWeakLeft).c.OnlyWeak ∧ (wafter onlyWeakLeft).c.WeakTo 1 ∧
    (wafter onlyWeakLeft).there (.node 0) = false ∧ (wafter onlyWeakLeft).there (.node 1) = true ∧ (wafter onlyWeakLeft).there (.node 2) = false :=
  ⟨by unfold Conf.Quiet; decide +kernel, by decide +kernel, (by
      intro k e hk
      match k with
      | 0 => cases (show (wafter onlyWeakLeft).c.get 0 = none by decide +kernel).symm.trans hk
      | 1 => cases (show (wafter onlyWeakLeft).c.get 1 = none by decide +kernel).symm.trans hk
      | 2 =>
        have := (show (wafter onlyWeakLeft).c.get 2 = some ⟨.weak (some 1) (some 0), false⟩ by decide +kernel).symm.trans hk
        cases this; exact ⟨_, _, rfl⟩
      | k + 3 => cases (show (wafter onlyWeakLeft).c.get (k + 3) = none from by
          have : (wafter onlyWeakLeft).c.hs.length = 3 := by decide +kernel
          simp only [Conf.get]; rw [List.getElem?_eq_none (by omega)]; rfl).symm.trans hk),
    ⟨2, some 0, false, by decide +kernel⟩, by decide +kernel, by decide +kernel, by decide +kernel⟩

/-- Nothing is left. -/
example : (wafter nothingLeft).c.Quiet ∧ (wafter nothingLeft).due = [] ∧ (wafter nothingLeft).c.hs = [none, none, none] ∧
    (wafter nothingLeft).c.a.b.sk.next = 3 ∧ (wafter nothingLeft).there (.node 1) = false :=
  ⟨by unfold Conf.Quiet; decide +kernel, by decide +kernel, by decide +kernel, by decide +kernel, by decide +kernel⟩

/-- A destructor panics: the owner of the items is dropped, the items' destructors run, the first one panics. -/
def panicked : List (WAct Nat) := [.op (.new [1, 2]), .run 0 8, .op (.downgrade 0), .run 1 3, .op (.drop 0), .run 2 2, .panic 2, .run 2 12, .flush]

example : ((WConf.init false).exec (fun c op => c.careful op) panicked).isSome = true ∧ (wafter panicked).c.calls.map (·.fin) = [true, true, true] ∧
    (wafter panicked).there (.node 1) = true ∧ (wafter panicked).there (.node 0) = false := by decide +kernel

end Arc
end Verif
