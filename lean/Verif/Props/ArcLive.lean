import Verif.Arc.Proofs.Live
import Verif.Props.ArcGate
import Verif.Props.ArcSafety
import Verif.Props.ArcChild
/-!
# C41, C44: guard acquisition is lock-free, gates are opened again, and no call hangs

For every number of threads and every schedule, in programs where no call of
`WeakSlice::upgrade` overlaps a call of `into_mut` on a larger slice (`Tame`).
-/

namespace Verif
open Arc
open Spec (Side Slot)
variable {α : Type} {P : Rules α} {zst : Bool} {c c' : Conf α}

/-! ## Vocabulary -/

/-- `s 0, s 1, …` is what happens from `s 0` on if the calls make their steps in the order
`f 0, f 1, …` and no new calls are made. -/
def Arc.Follows (f : Nat → Nat) (s : Nat → Conf α) : Prop := ∀ n, (s n).step (f n) = .ok (s (n + 1))

/-- Every call gets its turn again and again. -/
def Arc.Fair (f : Nat → Nat) : Prop := ∀ i n, ∃ m, n ≤ m ∧ f m = i

/-- The next step of call `i` installs a guard for the slice data `x` (the compare-and-swap
in arc_slice.rs:302 is about to succeed). -/
def Arc.Installs (c : Conf α) (i x : Nat) : Prop :=
  ∃ cl og fs y, c.calls[i]? = some cl ∧ cl.tasks = [] ∧ cl.pc = .gCas x (c.a.box x) og fs y

/-- The next step of call `i` is a compare-and-swap (arc_slice.rs:302) that is going to fail,
so the call has to try again. -/
def Arc.Retries (c : Conf α) (i x : Nat) : Prop :=
  ∃ cl b og fs y, c.calls[i]? = some cl ∧ cl.tasks = [] ∧ cl.pc = .gCas x b og fs y ∧ c.a.box x ≠ b

/-- The next step of call `i` reads the guard pointer of `x`: the load in arc_slice.rs:287,
or a compare-and-swap that fails. -/
def Arc.Reads (c : Conf α) (i x : Nat) : Prop :=
  (∃ cl fs y, c.calls[i]? = some cl ∧ cl.tasks = [] ∧ cl.pc = .gLoad x fs y) ∨ Retries c i x

/-- Executions: the steps of calls are recorded, with the states they start from. -/
inductive Arc.Run (P : Rules α) : Conf α → List (Conf α × Nat) → Conf α → Prop
  | refl (c : Conf α) : Run P c [] c
  | step {c c1 c2 : Conf α} {tr : List (Conf α × Nat)} (h : Run P c tr c1) (i : Nat) (e : c1.step i = .ok c2) :
      Run P c (tr ++ [(c1, i)]) c2
  | start {c c1 c2 : Conf α} {tr : List (Conf α × Nat)} (h : Run P c tr c1) (op : Op α) (hp : P c1 op) (e : c1.start op = some c2) :
      Run P c tr c2
  | write {c c1 c2 : Conf α} {tr : List (Conf α × Nat)} (h : Run P c tr c1) (k : Nat) (en : Ent) (j : Nat) (x : α)
      (hk : c1.get k = some en) (hw : Conf.writable en = true) (e : c1.write en j x = .ok c2) : Run P c tr c2

/-! ## All calls return -/

namespace Arc

theorem lex_trans {p q r : Nat × Nat} (h1 : Prod.Lex (· < ·) (· < ·) p q) (h2 : Prod.Lex (· < ·) (· < ·) q r) :
    Prod.Lex (· < ·) (· < ·) p r := by
  rw [Prod.lex_def] at *; omega

theorem lex_irrefl (p : Nat × Nat) : ¬ Prod.Lex (· < ·) (· < ·) p p := by
  rw [Prod.lex_def]; omega

theorem no_deadlock (A : c.IA false) (hq : ¬ c.Quiet) : ∃ i c', c.step i = .ok c' ∧ c' ≠ c := by
  refine Classical.byContradiction fun hn => hq ?_
  have B := A.bi
  -- no step changes anything: all calls have returned, or wait
  have stuck : ∀ (i : Nat) cl, c.calls[i]? = some cl → cl.stuck c := by
    intro i cl hi
    obtain ⟨c2, h1, _, h2⟩ := A.step (i := i)
    rcases B.down h2.evo h1 with ⟨_, h3⟩ | h3
    · exact h3 cl hi
    · refine absurd ⟨i, c2, h1, fun he => ?_⟩ hn
      subst he
      exact lex_irrefl _ h3
  -- nobody holds a latch
  have latch : ∀ cl ∈ c.calls, cl.cloneLatch = none ∧ cl.downLatch = none := by
    intro cl hc
    obtain ⟨i, hi⟩ := List.mem_iff_getElem?.1 hc
    rcases (stuck i cl hi).2 with ⟨r, hp⟩ | ⟨d, g, s, v, hp, _⟩ | ⟨d, g, v, hp, _⟩ <;> simp [Call.cloneLatch, Call.downLatch, hp]
  intro cl hc
  obtain ⟨i, hi⟩ := List.mem_iff_getElem?.1 hc
  obtain ⟨ht, ⟨r, hp⟩ | ⟨d, g, s, v, hp, hv, hg⟩ | ⟨d, g, v, hp, hv, hg⟩⟩ := stuck i cl hi
  · simp [Call.fin, ht, hp, Pc.isDone]
  · obtain ⟨cl', h1, h2⟩ := (gate_closed_iff B.gi hv).1.1 hg
    rw [(latch cl' h1).1] at h2; cases h2
  · obtain ⟨cl', h1, h2⟩ := (gate_closed_iff B.gi hv).2.1 hg
    rw [(latch cl' h1).2] at h2; cases h2

end Arc

theorem Arc.Follows.reach {f : Nat → Nat} {s : Nat → Conf α} (h : Conf.Reach P zst (s 0)) (hs : Follows f s) (n : Nat) :
    Conf.Reach P zst (s n) := by
  induction n with
  | zero => exact h
  | succ n ih => exact .run ih (f n) (hs n)

/-- C44: the calls in flight come to rest, whatever the schedule: from some moment on no
step changes anything. -/
theorem C44_comes_to_rest (hP : Tame P) {f : Nat → Nat} {s : Nat → Conf α} (h : Conf.Reach P zst (s 0)) (hs : Follows f s) :
    ∃ N, ∀ n, N ≤ n → s n = s N := by
  have wf := (Prod.lex ⟨(· < ·), Nat.lt_wfRel.wf⟩ ⟨(· < ·), Nat.lt_wfRel.wf⟩).wf
  have down : ∀ m k, s (m + k) = s m ∨ Prod.Lex (· < ·) (· < ·) (s (m + k)).mu (s m).mu := by
    intro m k
    induction k with
    | zero => exact .inl rfl
    | succ k ih =>
      have hr := hs.reach h (m + k)
      obtain ⟨c2, h1, h2⟩ := Conf.Reach.step hP hr (f (m + k))
      rw [hs (m + k)] at h1; cases h1
      rcases (hr.BI hP).down h2.evo (hs (m + k)) with ⟨h3, _⟩ | h3
      · rcases ih with ih | ih
        · exact .inl (h3.trans ih)
        · exact .inr (by rw [show m + (k + 1) = m + k + 1 from rfl, h3]; exact ih)
      · rcases ih with ih | ih
        · exact .inr (by rw [← ih]; exact h3)
        · exact .inr (lex_trans h3 ih)
  have key : ∀ (p : Nat × Nat) (m : Nat), (s m).mu = p → ∃ N, ∀ n, N ≤ n → s n = s N := by
    intro p
    induction wf.apply p with
    | intro p _ ih =>
      intro m hm
      by_cases hc : ∃ k, s (m + k) ≠ s m
      · obtain ⟨k, hk⟩ := hc
        rcases down m k with h1 | h1
        · exact absurd h1 hk
        · exact ih _ (by rw [← hm]; exact h1) (m + k) rfl
      · refine ⟨m, fun n hn => ?_⟩
        obtain ⟨k, rfl⟩ := Nat.exists_eq_add_of_le hn
        exact Classical.byContradiction fun hh => hc ⟨k, hh⟩
  exact key _ 0 rfl

/-- C44: there are no deadlocks: as long as some call has not returned, some call can go
on. -/
theorem C44_no_deadlock (hP : Tame P) (h : Conf.Reach P zst c) (hq : ¬ c.Quiet) : ∃ i c', c.step i = .ok c' ∧ c' ≠ c := no_deadlock (h.IA' hP) hq

/-- C44: under every fair schedule all calls return. -/
theorem C44_all_return (hP : Tame P) {f : Nat → Nat} {s : Nat → Conf α} (h : Conf.Reach P zst (s 0)) (hs : Follows f s) (hf : Fair f) :
    ∃ N, ∀ n, N ≤ n → (s n).Quiet := by
  obtain ⟨N, hN⟩ := C44_comes_to_rest hP h hs
  refine ⟨N, fun n hn => ?_⟩
  rw [hN n hn]
  refine Classical.byContradiction fun hq => ?_
  obtain ⟨i, c', h1, h2⟩ := C44_no_deadlock hP (hs.reach h N) hq
  obtain ⟨m, h3, rfl⟩ := hf i N
  have h4 := hs m
  rw [hN m h3, h1, hN (m + 1) (by omega)] at h4
  exact h2 (Except.ok.inj h4)

/-- C41: a gate that a call closes is open again when the call has returned: when no call is
in flight all gates are open. -/
theorem C41_gates_open (h : Conf.Reach P zst c) (hq : c.Quiet) {g : Nat} {v : GuardV} (hg : c.a.guard g = some v) :
    v.cGate = false ∧ v.dGate = false := by
  have key : ∀ cl ∈ c.calls, cl.cloneLatch = none ∧ cl.downLatch = none := by
    intro cl hc
    have := hq cl hc
    cases hp : cl.pc <;> simp_all [Call.fin, Pc.isDone, Call.cloneLatch, Call.downLatch]
  obtain ⟨h1, h2⟩ := C35_closed_iff h hg
  constructor
  · cases hv : v.cGate with
    | false => rfl
    | true => obtain ⟨cl, h3, h4⟩ := h1.1 hv; rw [(key cl h3).1] at h4; cases h4
  · cases hv : v.dGate with
    | false => rfl
    | true => obtain ⟨cl, h3, h4⟩ := h2.1 hv; rw [(key cl h3).2] at h4; cases h4

/-! ## Who retries was overtaken -/

namespace Arc

/-- The pointers a call has read and not used yet. -/
def seen : Pc α → List (Nat × Nat)
  | .gLoad _ fs _ | .gRet _ fs _ => fs.map fun f => (f.x, f.b)
  | .gTry x b _ fs _ | .gPar x b fs _ | .gCas x b _ fs _ => (x, b) :: fs.map fun f => (f.x, f.b)
  | _ => []

theorem seen_pc {a a' : Arena α} {pc : Pc α} {n : Next α} (e : PStep a pc a' n) {x b : Nat} (h : (x, b) ∈ seen n.pc) :
    (x, b) ∈ seen pc ∨ (b = a.box x ∧ a' = a) := by
  cases e
  all_goals first
    | exact .inl h
    | (simp only [seen, List.mem_cons, Prod.mk.injEq] at h ⊢
       rcases h with ⟨rfl, rfl⟩ | h
       · first | exact .inr ⟨rfl, rfl⟩ | simp
       · first | exact .inl h | exact .inl (.inr h))
    | (simp only [seen, List.mem_cons] at h ⊢; exact .inl (.inr h))
    | (exfalso; simp [seen] at h; done)

theorem seen_ids {pc : Pc α} {x b : Nat} (h : (x, b) ∈ seen pc) : x ∈ ids pc := by
  have key : ∀ {fs : List GFrame}, (x, b) ∈ fs.map (fun f => (f.x, f.b)) → x ∈ fs.map (·.x) := by
    intro fs h
    obtain ⟨f, h1, h2⟩ := List.mem_map.1 h
    cases h2
    exact List.mem_map.2 ⟨f, h1, rfl⟩
  cases pc <;> simp only [seen, List.not_mem_nil, List.mem_cons, Prod.mk.injEq] at h
  case gLoad => exact List.mem_cons_of_mem _ (key h)
  case gRet => exact key h
  case gTry =>
    rcases h with ⟨rfl, _⟩ | h
    · exact List.mem_cons_self ..
    · exact List.mem_cons_of_mem _ (key h)
  case gPar =>
    rcases h with ⟨rfl, _⟩ | h
    · exact List.mem_cons_self ..
    · exact List.mem_cons_of_mem _ (key h)
  case gCas =>
    rcases h with ⟨rfl, _⟩ | h
    · exact List.mem_cons_self ..
    · exact List.mem_cons_of_mem _ (key h)

/-- A guard pointer changes only if a call installs a guard. -/
theorem box_step (hP : Tame P) (h : Conf.Reach P zst c) {i : Nat} (e : c.step i = .ok c') {x : Nat} (hx : x < c.a.b.sk.next) :
    c'.a.box x = c.a.box x ∨ Installs c i x := by
  have B := h.BI hP
  obtain ⟨c2, h1, h2⟩ := Conf.Reach.step hP h i
  rw [e] at h1; cases h1
  cases CStep.of e with
  | none hn => exact .inl rfl
  | task cl t ts a' new hi ht e2 =>
    have I : HInv c.a.b (ataskT t ++ (ts.flatMap ataskT ++ pcT cl.pc ++ c.rest i)) := by
      have := B.heap.perm (Conf.T_perm hi)
      simpa [callT, ht, List.append_assoc] using this
    exact .inl (congrFun (down_task I ((B.calls i cl hi).2 t (by rw [ht]; exact List.mem_cons_self ..)) B.gi e2).1 x)
  | pc cl a' n hi ht e2 =>
    cases down_pc (n := c.calls.length) B.heap B.par (B.calls i cl hi).1 (B.ids hi).1 h2.evo (.of e2) with
    | stay h1 _ _ => exact .inl (congrArg (fun a => a.box x) h1)
    | down hb _ => exact .inl (hb x hx)
    | inst z b og fs y hp hz nb hd hb _ =>
      by_cases hxz : x = z
      · subst hxz
        exact .inr ⟨cl, og, fs, y, hi, ht, by rw [hp, hz]⟩
      · refine .inl ?_
        show a'.box x = _
        rw [show a'.box = _ from hb]; simp [Rc.upd, hxz]
    | fg hb _ _ => exact .inl (congrFun hb x)

/-- What call `i` has read of `x` is still there. -/
def Fresh (c : Conf α) (i x : Nat) : Prop := ∀ cl b, c.calls[i]? = some cl → (x, b) ∈ seen cl.pc → c.a.box x = b

/-- … until another call installs a guard for `x`. -/
theorem fresh_step (hP : Tame P) (h : Conf.Reach P zst c) {i j : Nat} (e : c.step j = .ok c') {x : Nat} (hx : x < c.a.b.sk.next)
    (hf : Fresh c i x) : Fresh c' i x ∨ (j ≠ i ∧ Installs c j x) := by
  by_cases hj : j = i
  · subst hj
    refine .inl ?_
    have hb := box_step hP h e hx
    have hn := fun cl (hi : c.calls[j]? = some cl) => (Conf.BI.ids (h.BI hP) hi).2
    cases CStep.of e with
    | none hn => exact hf
    | task cl t ts a' new hi ht e2 =>
      rcases hb with hb | ⟨cl2, _, _, _, h1, h2, _⟩
      · intro cl2 b h1 h2
        rw [hb]
        simp only [Conf.after, List.getElem?_set_self (List.getElem?_eq_some_iff.1 hi).1, Option.some.injEq] at h1
        subst h1
        exact hf cl b hi h2
      · rw [hi] at h1; cases h1; rw [ht] at h2; cases h2
    | pc cl a' n hi ht e2 =>
      intro cl2 b h1 h2
      simp only [Conf.after, List.getElem?_set_self (List.getElem?_eq_some_iff.1 hi).1, Option.some.injEq] at h1
      subst h1
      rcases hb with hb | ⟨cl2, og, fs, y, h1, _, h3⟩
      · rw [hb]
        rcases seen_pc (.of e2) h2 with h3 | ⟨h3, _⟩
        · exact hf cl b hi h3
        · exact h3.symm
      · rw [hi] at h1; cases h1
        have h4 := hn cl hi
        have h5 : PStep c.a cl.pc a' n := .of e2
        rw [h3] at h4 h5
        cases h5 with
        | gCasWin _ _ _ _ _ v hd hb =>
          have h6 := seen_ids (pc := .gRet c.a.ng fs y) h2
          exact absurd h6 (List.nodup_cons.1 h4).1
        | gCasLost _ _ _ _ _ v hd hb => exact absurd rfl hb
  · rcases box_step hP h e hx with hb | hb
    · refine .inl fun cl b h1 h2 => ?_
      rw [hb]
      refine hf cl b ?_ h2
      cases CStep.of e with
      | none hn => exact h1
      | task => rwa [Conf.after, List.getElem?_set_ne hj] at h1
      | pc => rwa [Conf.after, List.getElem?_set_ne hj] at h1
    · exact .inr ⟨hj, hb⟩

theorem Run.reach (hc : Conf.Reach P zst c) {tr : List (Conf α × Nat)} (h : Run P c tr c') : Conf.Reach P zst c' := by
  induction h with
  | refl => exact hc
  | step _ i e ih => exact .run ih i e
  | start _ op hp e ih => exact .start ih op hp e
  | write _ k en j x hk hw e ih => exact .write ih k en j x hk hw e

theorem fresh_run (hP : Tame P) (hc : Conf.Reach P zst c) {tr : List (Conf α × Nat)} (h : Run P c tr c') {i x : Nat}
    (hi : i < c.calls.length) (hx : x < c.a.b.sk.next) (hf : Fresh c i x) :
    (i < c'.calls.length ∧ x < c'.a.b.sk.next) ∧ (Fresh c' i x ∨ ∃ p ∈ tr, p.2 ≠ i ∧ Installs p.1 p.2 x) := by
  induction h with
  | refl => exact ⟨⟨hi, hx⟩, .inl hf⟩
  | @step c1 c2 tr hr j e ih =>
    have hc1 := hr.reach hc
    obtain ⟨⟨h1, h2⟩, h3⟩ := ih
    obtain ⟨c3, h4, h5⟩ := Conf.Reach.step hP hc1 j
    rw [e] at h4; cases h4
    refine ⟨⟨?_, Nat.lt_of_lt_of_le h2 h5.evo.evo.next⟩, ?_⟩
    · cases CStep.of e <;> simpa [Conf.after] using h1
    · rcases h3 with h3 | ⟨p, h3, h6⟩
      · rcases fresh_step hP hc1 e h2 h3 with h3 | h3
        · exact .inl h3
        · exact .inr ⟨(c1, j), by simp, h3⟩
      · exact .inr ⟨p, by simp [h3], h6⟩
  | @start c1 c2 tr hr op hp e ih =>
    obtain ⟨⟨h1, h2⟩, h3⟩ := ih
    have ea := (Conf.start_T e).2
    have hl : c1.calls.length ≤ c2.calls.length := by
      cases SStep.of e <;> simp [Conf.plain, Conf.shared, Conf.taking]
    refine ⟨⟨by omega, by rw [ea]; exact h2⟩, h3.imp_left fun h3 cl b hi hb => ?_⟩
    rw [ea]
    rcases start_call (.of e) hi with h4 | ⟨h4, _⟩
    · exact h3 cl b h4 hb
    · omega
  | @write c1 c2 tr hr k en j z hk hw e ih =>
    rcases Conf.write_cases e with rfl | ⟨b, i0, rfl⟩
    · exact ih
    · exact ih

end Arc

/-- C41: a call that looks for the guard of a slice has to try again only if another call has
installed a guard for the same slice since it last looked: whoever is overtaken is overtaken
by a call that got on. -/
theorem C41_retry_only_if_overtaken (hP : Tame P) (h : Conf.Reach P zst c) {i x : Nat} (hr : Reads c i x) {c1 : Conf α}
    (e : c.step i = .ok c1) {tr : List (Conf α × Nat)} (run : Run P c1 tr c') (ht : Retries c' i x) :
    ∃ p ∈ tr, p.2 ≠ i ∧ Installs p.1 p.2 x := by
  have B := h.BI hP
  obtain ⟨cl, hi, hn⟩ : ∃ cl, c.calls[i]? = some cl ∧ x ∈ ids cl.pc := by
    rcases hr with ⟨cl, fs, y, h1, _, h3⟩ | ⟨cl, b, og, fs, y, h1, _, h3, _⟩ <;> exact ⟨cl, h1, by rw [h3]; exact List.mem_cons_self ..⟩
  have hx := (B.ids hi).1 x hn
  obtain ⟨c2, e2, ev⟩ := Conf.Reach.step hP h i
  rw [e] at e2; cases e2
  have hl : i < c1.calls.length := by
    have := (List.getElem?_eq_some_iff.1 hi).1
    cases CStep.of e <;> simpa [Conf.after] using this
  have hf : Fresh c1 i x := by
    intro cl1 b h1 h2
    have nd := (B.ids hi).2
    have done : ∀ {fs : List GFrame}, (x :: fs.map (·.x)).Nodup → (x, b) ∉ fs.map fun f => (f.x, f.b) := by
      intro fs hd hm
      obtain ⟨f, h3, h4⟩ := List.mem_map.1 hm
      cases h4
      exact (List.nodup_cons.1 hd).1 (List.mem_map.2 ⟨f, h3, rfl⟩)
    cases CStep.of e with
    | none hn => rw [hi] at hn; cases hn
    | task cl2 t ts a' new hi2 ht e2 =>
      rw [hi] at hi2; cases hi2
      rcases hr with ⟨_, fs, y, h3, h4, h5⟩ | ⟨_, b, og, fs, y, h3, h4, h5, _⟩ <;>
      · rw [hi] at h3; cases h3; rw [ht] at h4; cases h4
    | pc cl2 a' n hi2 ht e2 =>
      rw [hi] at hi2; cases hi2
      simp only [Conf.after, List.getElem?_set_self (List.getElem?_eq_some_iff.1 hi).1, Option.some.injEq] at h1
      subst h1
      have h5 : PStep c.a cl.pc a' n := .of e2
      rcases hr with ⟨_, fs, y, h3, _, h4⟩ | ⟨_, b, og, fs, y, h3, _, h4, h6⟩
      · rw [hi] at h3; cases h3
        rw [h4] at h5 nd
        cases h5
        simp only [seen, List.mem_cons, Prod.mk.injEq, true_and] at h2
        rcases h2 with rfl | h2
        · rfl
        · exact absurd h2 (done nd)
      · rw [hi] at h3; cases h3
        rw [h4] at h5 nd
        cases h5 with
        | gCasWin _ _ _ _ _ v hd hb => exact absurd hb h6
        | gCasLost _ _ _ _ _ v hd hb =>
          simp only [seen, List.mem_cons, Prod.mk.injEq, true_and] at h2
          rcases h2 with rfl | h2
          · rfl
          · exact absurd h2 (done nd)
  rcases (fresh_run hP (.run h i e) run hl (Nat.lt_of_lt_of_le hx ev.evo.evo.next) hf).2 with h1 | h1
  · obtain ⟨cl1, b, og, fs, y, h2, _, h3, h4⟩ := ht
    exact absurd (h1 cl1 b h2 (by rw [h3]; exact List.mem_cons_self ..)) h4
  · exact h1

/-- C41: a gate that `get_mut` or `into_mut` has closed is reopened by a step of the same
call, the one that holds the latch; no other call reopens it. -/
theorem C41_same_call_reopens (h : Conf.Reach P zst c) {j : Nat} (e : c.step j = .ok c') {g : Nat} {v v' : GuardV}
    (hg : c.a.guard g = some v) (hg' : c'.a.guard g = some v') :
    (v.cGate = true → v'.cGate = false → ∃ cl, c.calls[j]? = some cl ∧ cl.cloneLatch = some g) ∧
    (v.dGate = true → v'.dGate = false → ∃ cl, c.calls[j]? = some cl ∧ cl.downLatch = some g) := by
  obtain ⟨h1, h2⟩ := C35_closed_iff h hg
  obtain ⟨h3, h4⟩ := C35_closed_iff (.run h j e) hg'
  have other : ∀ {i : Nat} {cl : Call α}, c.calls[i]? = some cl → i ≠ j → cl ∈ c'.calls := by
    intro i cl hi hn
    cases CStep.of e with
    | none hn => exact List.mem_of_getElem? hi
    | task => exact List.mem_of_getElem? (i := i) (by rwa [Conf.after, List.getElem?_set_ne (Ne.symm hn)])
    | pc => exact List.mem_of_getElem? (i := i) (by rwa [Conf.after, List.getElem?_set_ne (Ne.symm hn)])
  constructor
  · intro hv hv'
    obtain ⟨cl, hc, hl⟩ := h1.1 hv
    obtain ⟨i, hi⟩ := List.mem_iff_getElem?.1 hc
    by_cases hn : i = j
    · exact ⟨cl, hn ▸ hi, hl⟩
    · rw [h3.2 ⟨cl, other hi hn, hl⟩] at hv'; cases hv'
  · intro hv hv'
    obtain ⟨cl, hc, hl⟩ := h2.1 hv
    obtain ⟨i, hi⟩ := List.mem_iff_getElem?.1 hc
    by_cases hn : i = j
    · exact ⟨cl, hn ▸ hi, hl⟩
    · rw [h4.2 ⟨cl, other hi hn, hl⟩] at hv'; cases hv'

/-! ## The hypotheses are met -/

namespace Arc

/-- Every schedule can be followed. -/
theorem exists_follows (hP : Tame P) (h : Conf.Reach P zst c) (f : Nat → Nat) : ∃ s, s 0 = c ∧ Follows f s := by
  have next : ∀ (c : { c : Conf α // Conf.Reach P zst c }) (i : Nat), ∃ c' : { c : Conf α // Conf.Reach P zst c }, c.1.step i = .ok c'.1 := by
    intro c i
    obtain ⟨c', e, _⟩ := Conf.Reach.step hP c.2 i
    exact ⟨⟨c', .run c.2 i e⟩, e⟩
  refine ⟨fun n => (Nat.rec ⟨c, h⟩ (fun n s => Classical.choose (next s (f n))) n : { c : Conf α // Conf.Reach P zst c }).1, rfl, fun n => ?_⟩
  exact Classical.choose_spec (next _ (f n))

/-- A fair schedule, for any number of calls. -/
def turns (n : Nat) : Nat := n - 2 ^ n.log2

theorem turns_fair : Fair turns := by
  intro i n
  have h1 : i + n < 2 ^ (i + n) := Nat.lt_two_pow_self
  refine ⟨2 ^ (i + n) + i, by omega, ?_⟩
  have h2 : (2 ^ (i + n) + i).log2 = i + n := by
    rw [Nat.log2_eq_iff (by omega)]
    omega
  simp [turns, h2]

/-- One thread is in `get_mut` and holds the latch of the downgrade gate; another one waits at
that gate to make a `WeakSlice`. -/
def waits : List (Act Nat) :=
  [.op (.new [1, 2, 3]), .run 0 8, .op (.clone 0), .run 1 5, .op (.getMut 0), .run 2 2, .op (.downgrade 1), .run 3 1]

theorem waits_reach : Conf.Reach (only Op.NoIntoMut) false (after waits) :=
  exec_reach (as := waits) .init (by
    intro o ho
    simp only [waits, List.mem_cons, Act.op.injEq, reduceCtorEq, false_or, List.not_mem_nil, or_false] at ho
    rcases ho with rfl | rfl | rfl | rfl <;> trivial) rfl

example : (∃ cl ∈ (after waits).calls, cl.downLatch = some 0) ∧ ¬ (after waits).Quiet := by
  constructor
  · exact ⟨_, List.mem_of_getElem? (i := 2) rfl, rfl⟩
  · unfold Conf.Quiet; decide

/-- They all return. -/
example : ∃ (s : Nat → Conf Nat) (N : Nat), s 0 = after waits ∧ Follows turns s ∧ ∀ n, N ≤ n → (s n).Quiet := by
  obtain ⟨s, h1, h2⟩ := exists_follows noIntoMut_tame waits_reach turns
  obtain ⟨N, hN⟩ := C44_all_return noIntoMut_tame (s := s) (by rw [h1]; exact waits_reach) h2 turns_fair
  exact ⟨s, N, h1, h2, hN⟩

theorem Run.steps {i n : Nat} : ∀ {c1 c2 : Conf α} {tr : List (Conf α × Nat)}, Run P c tr c1 → Arc.steps c1 i n = .ok c2 → ∃ tr, Run P c tr c2 := by
  induction n with
  | zero => intro c1 c2 tr h e; cases e; exact ⟨tr, h⟩
  | succ n ih =>
    intro c1 c2 tr h e
    simp only [Arc.steps] at e
    cases hs : c1.step i with
    | error u => rw [hs] at e; cases e
    | ok c3 => rw [hs] at e; exact ih (.step h i hs) e

/-- Two calls of `clone_left` look for the guard of their common child; call 2 reads its guard
pointer, … -/
def reads : List (Act Nat) := loses ++ [.run 2 3]

/-- … and has to try again, after call 1 has installed a guard. -/
def retries : List (Act Nat) := reads ++ [.run 2 7, .run 1 9]

theorem reads_reach : Conf.Reach (only Op.NoIntoMut) false (after reads) :=
  exec_reach (as := reads) .init (by
    intro o ho
    simp only [reads, loses, List.cons_append, List.nil_append, List.mem_cons, Act.op.injEq, reduceCtorEq, false_or,
      List.not_mem_nil, or_false] at ho
    rcases ho with rfl | rfl | rfl <;> trivial) rfl

example : Reads (after reads) 2 2 := .inl ⟨_, _, _, rfl, rfl, rfl⟩

example : ∃ c1 tr, (after reads).step 2 = .ok c1 ∧ Run (only Op.NoIntoMut) c1 tr (after retries) ∧
    Retries (after retries) 2 2 ∧ ∃ p ∈ tr, p.2 ≠ 2 ∧ Installs p.1 p.2 2 := by
  have r0 : ∀ c1 : Conf Nat, Run (only Op.NoIntoMut) c1 [] c1 := .refl
  obtain ⟨tr1, r1⟩ := Run.steps (i := 2) (n := 6) (r0 (after (reads ++ [.run 2 1]))) (c2 := after (reads ++ [.run 2 7])) rfl
  obtain ⟨tr, r2⟩ := Run.steps (i := 1) (n := 9) r1 (c2 := after retries) rfl
  have hr : Retries (after retries) 2 2 := ⟨_, 2, _, _, _, rfl, rfl, rfl, by decide⟩
  exact ⟨_, tr, rfl, r2, hr, C41_retry_only_if_overtaken noIntoMut_tame reads_reach (.inl ⟨_, _, _, rfl, rfl, rfl⟩) rfl r2 hr⟩

end Arc

end Verif
