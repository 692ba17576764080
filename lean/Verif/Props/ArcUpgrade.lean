import Verif.Arc.Proofs.SeqAlive
import Verif.Props.ArcRefuse
/-!
# C49: `WeakSlice::upgrade` of the `Arc` version, in many threads

A slice is alive as long as there is an `ArcSlice` to it or to one it was cut from. A
`WeakSlice` can be upgraded while its slice is alive, and never again afterwards.

`c.a.b.sk.lab d` is where the slice with data `d` is in its tree: the family and the halvings
that lead to it; it is recorded when the data is made. `x.up y` says that `y` is `x` or was cut
from it.
-/

namespace Verif
open Arc
open Spec (Side Slot)
variable {α : Type} {P : Rules α} {zst : Bool} {c c1 c2 c3 : Conf α}

namespace Arc

/-- Handle `k` is an `ArcSlice` to the slice with data `d`, or to one it was cut from. -/
def Conf.Keeps (c : Conf α) (k d : Nat) : Prop :=
  ∃ y g b, c.get k = some ⟨.strong y g, b⟩ ∧ (c.a.b.sk.lab y).up (c.a.b.sk.lab d)

theorem start_upgrade {w : Nat} (hs : c.start (.upgrade w) = some c1) :
    ∃ d g b, c.get w = some ⟨.weak d g, b⟩ ∧ c1 = c.shared (.upgrade w) w (.up d) := by
  simp only [Conf.start] at hs
  split at hs
  · next d g b h => cases hs; exact ⟨d, g, b, h, rfl⟩
  · cases hs

/-- Where an upgrade is; `dead` holds if it has failed. -/
def upPc (d : Nat) (dead : Prop) (out : List Nat) : Pc α → Prop
  | .up o => o = some d ∧ out = []
  | .gLoad _ _ y | .gTry _ _ _ _ y | .gPar _ _ _ y | .gCas _ _ _ _ y | .gRet _ _ y => y = d ∧ out = []
  | .done .handle => ∃ n, out = [n]
  | .done .none => out = [] ∧ dead
  | _ => False

theorem upPc_step {a a' : Arena α} {pc : Pc α} {n : Next α} {d l : Nat} {out : List Nat} {D D' : Prop} (e : PStep a pc a' n)
    (h : upPc d D out pc) (h1 : a.b.strong d = 0 → D') (h2 : D → D') :
    upPc d D' (out ++ List.range' l n.push.length) n.pc ∧ ∀ e ∈ n.push, ∃ g, e.h = .strong d g := by
  cases e <;> first
    | exact False.elim h
    | (obtain ⟨rfl, rfl⟩ := h; exact ⟨⟨rfl, rfl⟩, fun e he => by cases he⟩)
    | (obtain ⟨h0, rfl⟩ := h; cases h0; exact ⟨⟨rfl, rfl⟩, fun e he => by cases he⟩)
    | (obtain ⟨h0, rfl⟩ := h; cases h0; rename_i h0; exact ⟨⟨rfl, h1 h0⟩, fun e he => by cases he⟩)
    | (obtain ⟨h0, rfl⟩ := h; cases h0; done)
    | (obtain ⟨rfl, rfl⟩ := h; exact ⟨⟨_, rfl⟩, fun e he => by cases he <;> first | exact ⟨_, rfl⟩ | (rename_i he; cases he)⟩)
    | skip
  case done r =>
    simp only [List.length_nil, List.range'_zero, List.append_nil]
    refine ⟨?_, fun e he => by cases he⟩
    cases r <;> first | exact False.elim h | exact h | exact ⟨h.1, h2 h.2⟩

/-- A call of `upgrade` for data `d`. -/
structure Ups (c : Conf α) (j d : Nat) : Prop where
  lt : d < c.a.b.sk.next
  call : ∃ cl, c.calls[j]? = some cl ∧ upPc d (c.a.b.sk.node d = none) cl.out cl.pc ∧
    ∀ m ∈ cl.out, m < c.hs.length ∧ ∀ e, c.get m = some e → ∃ g, e.h = .strong d g

theorem dead_iff (B : c.BI) {d : Nat} : c.a.b.strong d = 0 ↔ c.a.b.sk.node d = none := by
  have := B.heap.good.ledger.live d
  rw [← Option.not_isSome_iff_eq_none, this]; omega

theorem dead_step (hP : Tame P) (h : Conf.Reach P zst c) {d i : Nat} (hd : d < c.a.b.sk.next) (e : c.step i = .ok c1) :
    d < c1.a.b.sk.next ∧ (c.a.b.sk.node d = none → c1.a.b.sk.node d = none) := by
  obtain ⟨c2, e2, ev⟩ := h.step hP i
  rw [e] at e2; cases e2
  exact ⟨Nat.lt_of_lt_of_le hd ev.evo.evo.next, ev.evo.evo.dead d hd⟩

theorem dead_run (hP : Tame P) (h : Conf.Reach P zst c) {d : Nat} (hd : d < c.a.b.sk.next) {tr : List (Conf α × Nat)} (run : Run P c tr c1) :
    d < c1.a.b.sk.next ∧ (c.a.b.sk.node d = none → c1.a.b.sk.node d = none) := by
  induction run with
  | refl => exact ⟨hd, id⟩
  | step r i e ih =>
    obtain ⟨h1, h2⟩ := dead_step hP (r.reach h) ih.1 e
    exact ⟨h1, fun h => h2 (ih.2 h)⟩
  | start r op hp e ih => rw [(Conf.start_T e).2]; exact ih
  | write r k en j x hk hw e ih =>
    rcases Conf.write_cases e with rfl | ⟨b, i, rfl⟩
    · exact ih
    · exact ih

theorem Ups.step (hP : Tame P) (hr : Conf.Reach P zst c) {j i d : Nat} (U : Ups c j d) (h : c.step i = .ok c1) : Ups c1 j d := by
  obtain ⟨cl, hj, hm, ho⟩ := U.call
  have B := hr.BI hP
  have hlen := step_len h
  obtain ⟨dl, dd⟩ := dead_step hP hr U.lt h
  have mono : upPc d (c1.a.b.sk.node d = none) cl.out cl.pc := by
    cases hp : cl.pc <;> rw [hp] at hm <;> first | exact hm | (rename_i r; cases r <;> first | exact hm | exact ⟨hm.1, dd hm.2⟩)
  have other : c1.calls[j]? = some cl → Ups c1 j d := fun h1 => ⟨dl, cl, h1, mono, fun m h2 =>
    ⟨Nat.lt_of_lt_of_le (ho m h2).1 hlen, fun e he => (ho m h2).2 e (step_get_back h (ho m h2).1 he)⟩⟩
  cases CStep.of h with
  | none _ => exact other hj
  | task cl0 t ts a' new hi ht0 e =>
    by_cases hij : i = j
    · subst hij
      rw [hj] at hi; cases hi
      have hl : i < c.calls.length := (List.getElem?_eq_some_iff.1 hj).1
      refine ⟨dl, { cl with tasks := new ++ ts }, by
        simp only [Conf.after, List.getElem?_set_self hl, List.length_nil, List.range'_zero, List.append_nil], mono, fun m h2 =>
        ⟨Nat.lt_of_lt_of_le (ho m h2).1 hlen, fun e he => (ho m h2).2 e (step_get_back h (ho m h2).1 he)⟩⟩
    · exact other (by rw [Conf.after, List.getElem?_set_ne hij]; exact hj)
  | pc cl0 a' n hi ht0 e =>
    by_cases hij : i = j
    · subst hij
      rw [hj] at hi; cases hi
      have hl : i < c.calls.length := (List.getElem?_eq_some_iff.1 hj).1
      obtain ⟨h7, h8⟩ := upPc_step (l := c.hs.length) (.of e) hm (fun h0 => dd ((dead_iff B).1 h0)) dd
      refine ⟨dl, _, by simp only [Conf.after, List.getElem?_set_self hl]; rfl, h7, fun m hmo => ?_⟩
      simp only [List.mem_append, List.mem_range'_1] at hmo
      refine ⟨?_, fun e he => ?_⟩
      · rcases hmo with hmo | hmo
        · exact Nat.lt_of_lt_of_le (ho m hmo).1 hlen
        · simp only [Conf.after, List.length_append, List.length_map]; omega
      · rcases after_get he with h9 | ⟨_, h9⟩
        · rcases hmo with hmo | hmo
          · exact (ho m hmo).2 e h9
          · exact absurd (c.get_lt h9) (by omega)
        · exact h8 e h9
    · exact other (by rw [Conf.after, List.getElem?_set_ne hij]; exact hj)

theorem Ups.run (hP : Tame P) (hr : Conf.Reach P zst c1) {j d : Nat} (U : Ups c1 j d) {tr : List (Conf α × Nat)} (run : Run P c1 tr c2) :
    Ups c2 j d := by
  induction run with
  | refl => exact U
  | step r i e ih => exact ih.step hP (r.reach hr) e
  | start r op hp e ih =>
    obtain ⟨cl, hj, hm, ho⟩ := ih.call
    have ha := (Conf.start_T e).2
    refine ⟨by rw [ha]; exact ih.lt, cl, start_calls_old e hj, by rw [ha]; exact hm,
      fun m h2 => ⟨Nat.lt_of_lt_of_le (ho m h2).1 (start_len (.of e)), fun en he => ?_⟩⟩
    obtain ⟨e2, h6, h7⟩ := start_get_back e (ho m h2).1 he
    rw [← h7]; exact (ho m h2).2 e2 h6
  | write r k en j x hk hw e ih =>
    rcases Conf.write_cases e with rfl | ⟨b, i0, rfl⟩
    · exact ih
    · exact ⟨ih.lt, ih.call⟩

theorem Ups.begin (hP : Tame P) (h : Conf.Reach P zst c) {w d : Nat} {g : Option Nat} {b : Bool} (hw : c.get w = some ⟨.weak (some d) g, b⟩)
    (hs : c.start (.upgrade w) = some c1) : Ups c1 c.calls.length d := by
  obtain ⟨d', g', b', hw', rfl⟩ := start_upgrade hs
  rw [hw] at hw'; cases hw'
  exact ⟨((h.BI hP).ents w _ hw d rfl).1, _, List.getElem?_concat_length, ⟨rfl, rfl⟩, fun m h => by cases h⟩

/-- What keeps a slice alive. -/
theorem Keeps.alive (hP : Tame P) (h : Conf.Reach P zst c) {k d : Nat} (hd : d < c.a.b.sk.next) (hk : c.a.b.sk.kind d = .data)
    (hh : c.Keeps k d) : c.a.b.sk.node d ≠ none := by
  obtain ⟨y, g, b, hg, hu⟩ := hh
  obtain ⟨v, hv⟩ := data_of_strong (h.BI hP) hg
  obtain ⟨n, hn⟩ := h.whole hP d y v hd hk hv hu
  rw [hn]; simp

theorem kind_run (hP : Tame P) (h : Conf.Reach P zst c) {d : Nat} (hd : d < c.a.b.sk.next) {tr : List (Conf α × Nat)} (run : Run P c tr c1) :
    c1.a.b.sk.kind d = c.a.b.sk.kind d ∧ ∀ x, x < c.a.b.sk.next → c1.a.b.sk.lab x = c.a.b.sk.lab x := by
  have key : c.a.b.sk.next ≤ c1.a.b.sk.next ∧ c1.a.b.sk.kind d = c.a.b.sk.kind d ∧ ∀ x, x < c.a.b.sk.next → c1.a.b.sk.lab x = c.a.b.sk.lab x := by
    induction run with
    | refl => exact ⟨Nat.le_refl _, rfl, fun _ _ => rfl⟩
    | step r i e ih =>
      obtain ⟨c3, e3, ev⟩ := Conf.Reach.step hP (r.reach h) i
      rw [e] at e3; cases e3
      have v := ev.evo.evo
      obtain ⟨h0, h1, h2⟩ := ih
      exact ⟨Nat.le_trans h0 v.next, by rw [v.kind d (by omega), h1], fun x hx => by rw [v.lab x (by omega), h2 x hx]⟩
    | start r op hp e ih => rw [(Conf.start_T e).2]; exact ih
    | write r k en j x hk hw e ih =>
      rcases Conf.write_cases e with rfl | ⟨b, i, rfl⟩
      · exact ih
      · exact ih
  exact key.2

/-- An upgrade that cannot succeed. -/
def Sunk (c : Conf α) (j d : Nat) : Prop := ∃ cl, c.calls[j]? = some cl ∧ cl.out = [] ∧ (cl.pc = .up (some d) ∨ cl.pc = .done .none)

theorem Sunk.step {j i d : Nat} (U : Sunk c j d) (h0 : c.a.b.strong d = 0) (h : c.step i = .ok c1) : Sunk c1 j d := by
  obtain ⟨cl, hj, ho, hm⟩ := U
  cases CStep.of h with
  | none _ => exact ⟨cl, hj, ho, hm⟩
  | task cl0 t ts a' new hi ht0 e =>
    by_cases hij : i = j
    · subst hij
      rw [hj] at hi; cases hi
      have hl : i < c.calls.length := (List.getElem?_eq_some_iff.1 hj).1
      exact ⟨{ cl with tasks := new ++ ts }, by
        simp only [Conf.after, List.getElem?_set_self hl, List.length_nil, List.range'_zero, List.append_nil], ho, hm⟩
    · exact ⟨cl, by rw [Conf.after, List.getElem?_set_ne hij]; exact hj, ho, hm⟩
  | pc cl0 a' n hi ht0 e =>
    by_cases hij : i = j
    · subst hij
      rw [hj] at hi; cases hi
      have hl : i < c.calls.length := (List.getElem?_eq_some_iff.1 hj).1
      refine ⟨_, by simp only [Conf.after, List.getElem?_set_self hl]; rfl, ?_⟩
      rcases hm with hm | hm <;> rw [hm] at e
      · simp only [pcStep, h0, if_true, Except.ok.injEq, Prod.mk.injEq] at e
        rw [← e.2]; simp [ho]
      · cases e; simp [ho]
    · exact ⟨cl, by rw [Conf.after, List.getElem?_set_ne hij]; exact hj, ho, hm⟩

theorem Sunk.run (hP : Tame P) (hr : Conf.Reach P zst c1) {j d : Nat} (U : Sunk c1 j d) (hd : d < c1.a.b.sk.next)
    (h0 : c1.a.b.sk.node d = none) {tr : List (Conf α × Nat)} (run : Run P c1 tr c2) : Sunk c2 j d := by
  induction run with
  | refl => exact U
  | step r i e ih =>
    exact ih.step ((dead_iff ((r.reach hr).BI hP)).2 ((dead_run hP hr hd r).2 h0)) e
  | start r op hp e ih =>
    obtain ⟨cl, hj, hm⟩ := ih
    exact ⟨cl, start_calls_old e hj, hm⟩
  | write r k en j x hk hw e ih =>
    rcases Conf.write_cases e with rfl | ⟨b, i0, rfl⟩
    · exact ih
    · exact ih

end Arc

/-- C49: `upgrade` succeeds if an `ArcSlice` to the slice, or to one it was cut from, is held
from the beginning to the end of the call, whatever other threads do meanwhile. It returns one
`ArcSlice` to the same slice. -/
theorem C49_granted (hP : Tame P) (h : Conf.Reach P zst c) {w k d : Nat} {g : Option Nat} {b : Bool}
    (hw : c.get w = some ⟨.weak (some d) g, b⟩) (hk : c.Keeps k d) (hp : P c (.upgrade w)) (hs : c.start (.upgrade w) = some c1)
    {tr : List (Conf α × Nat)} (run : Run P c1 tr c2) (hk' : c2.get k ≠ none) {cl : Call α}
    (hcl : c2.calls[c.calls.length]? = some cl) (hf : cl.fin = true) :
    cl.pc = .done .handle ∧ ∃ n, cl.out = [n] ∧ ∀ e, c2.get n = some e → ∃ g, e.h = .strong d g := by
  have hr : Conf.Reach P zst c1 := .start h _ hp hs
  have U := (Ups.begin hP h hw hs).run hP hr run
  obtain ⟨cl', h1, h2, h3⟩ := U.call
  rw [hcl] at h1; cases h1
  obtain ⟨hd, hkd⟩ := (h.BI hP).ents w _ hw d rfl
  have ha : c1.a = c.a := (Conf.start_T hs).2
  have al : c2.a.b.sk.node d ≠ none := by
    obtain ⟨y, g', b', hg, hu⟩ := hk
    have hy := (h.BI hP).heap.lt (ref_mem_aS (Conf.get_tok' hg (t := .ref y) (by simp [entT])))
    obtain ⟨q1, q2⟩ := kind_run hP hr (d := d) (by rw [ha]; exact hd) run
    rw [ha] at q1 q2
    obtain ⟨e, he⟩ := Option.ne_none_iff_exists'.1 hk'
    have hl1 : k < c1.hs.length := Nat.lt_of_lt_of_le (c.get_lt hg) (start_len (.of hs))
    obtain ⟨e1, he1, hh⟩ := get_back run hl1 he
    obtain ⟨e2, he2, hh2⟩ := start_get_back hs (c.get_lt hg) he1
    rw [hg] at he2; cases he2
    obtain ⟨eh, eb⟩ := e
    obtain rfl : .strong y g' = eh := hh2.trans hh
    refine Keeps.alive hP (run.reach hr) U.lt (by rw [q1]; exact hkd) ⟨y, g', eb, he, ?_⟩
    rw [q2 y hy, q2 d hd]; exact hu
  simp only [Call.fin, Bool.and_eq_true] at hf
  cases hpc : cl.pc <;> rw [hpc] at hf h2 <;> simp only [Pc.isDone, Bool.false_eq_true, and_false] at hf
  rename_i r
  cases r <;> simp only [upPc] at h2
  · obtain ⟨n, hn⟩ := h2
    exact ⟨rfl, n, hn, (h3 n (by rw [hn]; exact List.mem_cons_self)).2⟩
  · exact absurd h2.2 al

/-- C49: once `upgrade` has failed there is no `ArcSlice` to the slice or to one it was cut
from, and there never will be. -/
theorem C49_gone (hP : Tame P) (h : Conf.Reach P zst c) {w d : Nat} {g : Option Nat} {b : Bool}
    (hw : c.get w = some ⟨.weak (some d) g, b⟩) (hp : P c (.upgrade w)) (hs : c.start (.upgrade w) = some c1)
    {tr : List (Conf α × Nat)} (run : Run P c1 tr c2) {cl : Call α} (hcl : c2.calls[c.calls.length]? = some cl)
    (hf : cl.pc = .done .none) {tr' : List (Conf α × Nat)} (run' : Run P c2 tr' c3) (k : Nat) : ¬ c3.Keeps k d := by
  have hr : Conf.Reach P zst c1 := .start h _ hp hs
  have hr2 := run.reach hr
  have U := (Ups.begin hP h hw hs).run hP hr run
  obtain ⟨cl', h1, h2, h3⟩ := U.call
  rw [hcl] at h1; cases h1
  rw [hf] at h2
  obtain ⟨hd, hkd⟩ := (h.BI hP).ents w _ hw d rfl
  have ha : c1.a = c.a := (Conf.start_T hs).2
  obtain ⟨q1, _⟩ := kind_run hP hr (d := d) (by rw [ha]; exact hd) run
  obtain ⟨q3, _⟩ := kind_run hP hr2 (d := d) U.lt run'
  obtain ⟨q5, q6⟩ := dead_run hP hr2 U.lt run'
  intro hk
  exact Keeps.alive hP (run'.reach hr2) q5 (by rw [q3, q1, ha]; exact hkd) hk (q6 h2.2)

/-- C49: once `upgrade` has failed it always fails, for every `WeakSlice` to the same slice. -/
theorem C49_forever (hP : Tame P) (h : Conf.Reach P zst c) {w d : Nat} {g : Option Nat} {b : Bool}
    (hw : c.get w = some ⟨.weak (some d) g, b⟩) (hp : P c (.upgrade w)) (hs : c.start (.upgrade w) = some c1)
    {tr : List (Conf α × Nat)} (run : Run P c1 tr c2) {cl : Call α} (hcl : c2.calls[c.calls.length]? = some cl)
    (hf : cl.pc = .done .none) {tr' : List (Conf α × Nat)} (run' : Run P c2 tr' c3) {w' : Nat} {g' : Option Nat} {b' : Bool}
    (hw' : c3.get w' = some ⟨.weak (some d) g', b'⟩) (hp' : P c3 (.upgrade w')) {c4 c5 : Conf α} (hs' : c3.start (.upgrade w') = some c4)
    {tr'' : List (Conf α × Nat)} (run'' : Run P c4 tr'' c5) {cl' : Call α} (hcl' : c5.calls[c3.calls.length]? = some cl')
    (hf' : cl'.fin = true) : cl'.pc = .done .none ∧ cl'.out = [] := by
  have hr : Conf.Reach P zst c1 := .start h _ hp hs
  have hr2 := run.reach hr
  have hr3 := run'.reach hr2
  have U := (Ups.begin hP h hw hs).run hP hr run
  obtain ⟨cl0, h1, h2, _⟩ := U.call
  rw [hcl] at h1; cases h1
  rw [hf] at h2
  obtain ⟨q5, q6⟩ := dead_run hP hr2 U.lt run'
  obtain ⟨d1, g1, b1, hw1, rfl⟩ := start_upgrade hs'
  rw [hw'] at hw1; cases hw1
  have S : Sunk (c3.shared (.upgrade w') w' (.up (some d))) c3.calls.length d := ⟨_, List.getElem?_concat_length, rfl, .inl rfl⟩
  obtain ⟨cl1, h3, h4, h5⟩ := S.run hP (.start hr3 _ hp' hs') q5 (q6 h2.2) run''
  rw [hcl'] at h3; cases h3
  refine ⟨?_, h4⟩
  rcases h5 with h5 | h5
  · simp [Call.fin, h5, Pc.isDone] at hf'
  · exact h5

/-- C49: a call of `upgrade` that begins when no other call is in flight fails if there is no
`ArcSlice` to the slice or to one it was cut from. -/
theorem C49_refused (hP : Tame P) (h : Conf.Reach P zst c) (hq : c.Quiet) {w d : Nat} {g : Option Nat} {b : Bool}
    (hw : c.get w = some ⟨.weak (some d) g, b⟩) (hk : ∀ k, ¬ c.Keeps k d) (hp : P c (.upgrade w)) (hs : c.start (.upgrade w) = some c1)
    {tr : List (Conf α × Nat)} (run : Run P c1 tr c2) {cl : Call α}
    (hcl : c2.calls[c.calls.length]? = some cl) (hf : cl.fin = true) : cl.pc = .done .none ∧ cl.out = [] := by
  obtain ⟨hd, hkd⟩ := (h.BI hP).ents w _ hw d rfl
  have h0 : c.a.b.sk.node d = none := by
    rw [← dead_iff (h.BI hP)]
    apply Classical.byContradiction
    intro h0
    obtain ⟨m, y, g', b', hm, hu⟩ := (alive_iff hP h hq hd hkd).1 h0
    exact hk m ⟨y, g', b', hm, hu⟩
  obtain ⟨d1, g1, b1, hw1, rfl⟩ := start_upgrade hs
  rw [hw] at hw1; cases hw1
  have S : Sunk (c.shared (.upgrade w) w (.up (some d))) c.calls.length d := ⟨_, List.getElem?_concat_length, rfl, .inl rfl⟩
  obtain ⟨cl1, h3, h4, h5⟩ := S.run hP (.start h _ hp hs) hd h0 run
  rw [hcl] at h3; cases h3
  refine ⟨?_, h4⟩
  rcases h5 with h5 | h5
  · simp [Call.fin, h5, Pc.isDone] at hf
  · exact h5

/-! ### Cases -/

/-- `upgrade(&w)` while `l` is dropped by another thread and `a` is held: succeeds. -/
example : ∃ (c1 c2 : Conf Nat) (tr : _) (cl : Call Nat), held.get 2 = some ⟨.weak (some 2) (some 1), false⟩ ∧ held.Keeps 0 2 ∧
    held.start (.upgrade 2) = some c1 ∧
    Run (fun c op => c.careful op = true) c1 tr c2 ∧ c2.get 0 ≠ none ∧ c2.calls[held.calls.length]? = some cl ∧
    cl.fin = true ∧ cl.pc = .done .handle ∧ cl.out = [3] ∧ c2.get 1 = none := by
  obtain ⟨tr, r⟩ := Run.steps (P := fun c (op : Op Nat) => c.careful op = true) (i := 4) (n := 9)
    (.start (.refl (heldThen [.op (.upgrade 2)])) (.drop 1) rfl rfl) (c2 := heldThen [.op (.upgrade 2), .op (.drop 1), .run 4 9]) rfl
  obtain ⟨tr, r⟩ := Run.steps (i := 3) (n := 20) r
    (c2 := heldThen [.op (.upgrade 2), .op (.drop 1), .run 4 9, .run 3 20]) rfl
  exact ⟨_, _, tr, _, rfl, ⟨1, 0, false, rfl, rfl, [.L], rfl⟩, rfl, r, (by intro h; cases h), rfl, rfl, rfl, rfl, rfl⟩

/-- `upgrade(&w)` after `a` and `l` have been dropped: fails. -/
example : ∃ (c0 c1 c2 : Conf Nat) (tr : _) (cl : Call Nat), c0.get 2 = some ⟨.weak (some 2) (some 1), false⟩ ∧ (∀ k, ¬ c0.Keeps k 2) ∧
    c0.start (.upgrade 2) = some c1 ∧
    Run (fun c op => c.careful op = true) c1 tr c2 ∧ c2.calls[c0.calls.length]? = some cl ∧
    cl.fin = true ∧ cl.pc = .done .none ∧ cl.out = [] := by
  obtain ⟨tr, r⟩ := Run.steps (P := fun c (op : Op Nat) => c.careful op = true) (i := 5) (n := 1)
    (.refl (heldThen [.op (.drop 0), .run 3 40, .op (.drop 1), .run 4 40, .op (.upgrade 2)]))
    (c2 := heldThen [.op (.drop 0), .run 3 40, .op (.drop 1), .run 4 40, .op (.upgrade 2), .run 5 1]) rfl
  refine ⟨heldThen [.op (.drop 0), .run 3 40, .op (.drop 1), .run 4 40], _, _, tr, _, rfl, ?_, rfl, r, rfl, rfl, rfl, rfl⟩
  rintro k ⟨y, g, b, hk, _⟩
  match k, hk with
  | 0, hk => cases hk
  | 1, hk => cases hk
  | 2, hk => cases hk

end Verif
