import Verif.Arc.Proofs.Solo
import Verif.Props.ArcTurns
import Verif.Props.ArcBounds
/-!
# C79: how long calls take if nobody interferes

By C66 other threads can hold up `clone_left`, `clone_right`, `downgrade` and `upgrade` for ever. They have to do something for that: if other
threads pause, wherever they are in their calls, every call returns after a bounded number of steps, unless it has to wait for a gate
that one of the others has closed. For `clone_left`, `clone_right` and `upgrade` the bound is linear in the number of times the slice was
halved, so logarithmic in the size of the whole.
-/

namespace Verif
open Arc
open Spec (Side)
open Rc (Lab)
variable {α : Type} {P : Rules α} {zst : Bool} {c c1 c2 : Conf α}

namespace Arc

theorem At.fin {i : Nat} {r : Res α} (h : c.At i (.done r) []) : ∃ cl, c.calls[i]? = some cl ∧ cl.fin = true ∧ cl.pc = .done r := by
  obtain ⟨cl, h1, h2, h3⟩ := h
  exact ⟨cl, h1, by simp [Call.fin, h2, h3, Pc.isDone], h2⟩

theorem start_shared {op : Op α} {k : Nat} {pc : Pc α} : (c.shared op k pc).At c.calls.length pc [] := ⟨_, last _ _, rfl, rfl⟩

theorem shared_latch {op : Op α} {k : Nat} {pc : Pc α} {f : Call α → Option Nat} {g : Nat} (h : ∀ cl ∈ c.calls, f cl ≠ some g)
    (hn : ∀ b o, f { op, pc, borrow := b, on := o } = none) : ∀ cl ∈ (c.shared op k pc).calls, f cl ≠ some g := by
  intro cl hcl
  rcases List.mem_append.1 hcl with h1 | h1
  · exact h cl h1
  · rw [List.mem_singleton.1 h1, hn]; exact nofun

/-- `n` steps can be made, and they are `n` turns. -/
theorem steps_moves (hP : PTame P) {i : Nat} : ∀ (n : Nat), Conf.PReach P zst c →
    ∃ c2, steps c i n = .ok c2 ∧ Conf.PReach P zst c2 ∧ Moves P c c2 (List.replicate n i) := by
  intro n
  induction n with
  | zero => exact fun h => ⟨c, rfl, h, .refl⟩
  | succ n ih =>
    intro h
    obtain ⟨c2, h1, h2, h3⟩ := ih h
    obtain ⟨c3, e, _⟩ := (h2.IA' hP).step (i := i)
    exact ⟨c3, by rw [steps_add h1, steps_ok e]; rfl, .run h2 i e, .step h3 i e⟩

end Arc

/-- Call `cl` waits for a gate that call `cl'` has closed. -/
def Arc.Call.waitsFor (cl cl' : Call α) : Prop :=
  (∃ d g s, cl.pc = .wait d g s ∧ cl'.cloneLatch = some g) ∨ ∃ d g, cl.pc = .dg0 d g ∧ cl'.downLatch = some g

/-- A call that is in the middle, if others pause: it returns, or gets to where it has to wait for one of the others. -/
theorem C79_middle (hP : PTame P) (h : Conf.PReach P zst c) {i : Nat} {cl : Call α} (hi : c.calls[i]? = some cl) :
    ∃ n c2 cl2, steps c i n = .ok c2 ∧ c2.calls[i]? = some cl2 ∧
      (cl2.fin = true ∨ ∃ (j : Nat) (clj : Call α), j ≠ i ∧ c.calls[j]? = some clj ∧ cl2.waitsFor clj) := by
  have wf := (Prod.lex ⟨(· < ·), Nat.lt_wfRel.wf⟩ ⟨(· < ·), Nat.lt_wfRel.wf⟩).wf
  generalize hmu : c.mu = mu
  induction mu using wf.induction generalizing c cl with
  | _ mu ih =>
    obtain ⟨c2, h1, _, h2⟩ := (h.IA' hP).step (i := i)
    rcases (h.BI hP).down h2.evo h1 with ⟨_, h3⟩ | h3
    · refine ⟨0, c, cl, rfl, hi, ?_⟩
      have other : ∀ cl' ∈ c.calls, cl.waitsFor cl' → ∃ (j : Nat) (clj : Call α), j ≠ i ∧ c.calls[j]? = some clj ∧ cl.waitsFor clj := by
        intro cl' hc hw
        obtain ⟨j, hj⟩ := List.mem_iff_getElem?.1 hc
        refine ⟨j, cl', fun e => ?_, hj, hw⟩
        subst e
        rw [hi] at hj; cases hj
        rcases hw with ⟨d, g, s, hp, hl⟩ | ⟨d, g, hp, hl⟩ <;> simp [Call.cloneLatch, Call.downLatch, hp] at hl
      obtain ⟨ht, ⟨r, hp⟩ | ⟨d, g, s, v, hp, hv, hg⟩ | ⟨d, g, v, hp, hv, hg⟩⟩ := h3 cl hi
      · exact .inl (by simp [Call.fin, ht, hp, Pc.isDone])
      · obtain ⟨cl', h4, h5⟩ := (gate_closed_iff (h.BI hP).gi hv).1.1 hg
        exact .inr (other cl' h4 (.inl ⟨d, g, s, hp, h5⟩))
      · obtain ⟨cl', h4, h5⟩ := (gate_closed_iff (h.BI hP).gi hv).2.1 hg
        exact .inr (other cl' h4 (.inr ⟨d, g, hp, h5⟩))
    · have hl := (List.getElem?_eq_some_iff.1 hi).1
      have keep : (∃ cl2, c2.calls[i]? = some cl2) ∧ ∀ (j : Nat) clj, j ≠ i → c2.calls[j]? = some clj → c.calls[j]? = some clj := by
        cases CStep.of h1 with
        | none hn => rw [hi] at hn; cases hn
        | task => exact ⟨⟨_, List.getElem?_set_self hl⟩, fun j clj hj h4 => by simpa [Conf.after, List.getElem?_set_ne (Ne.symm hj)] using h4⟩
        | pc => exact ⟨⟨_, List.getElem?_set_self hl⟩, fun j clj hj h4 => by simpa [Conf.after, List.getElem?_set_ne (Ne.symm hj)] using h4⟩
      obtain ⟨⟨cl2, hi2⟩, keep⟩ := keep
      obtain ⟨n, c3, cl3, e3, h4, h5⟩ := ih c2.mu (hmu ▸ h3) (.run h i h1) hi2 rfl
      refine ⟨n + 1, c3, cl3, by rw [steps_ok h1]; exact e3, h4, ?_⟩
      rcases h5 with h5 | ⟨j, clj, hj, h6, h7⟩
      · exact .inl h5
      · exact .inr ⟨j, clj, hj, keep j clj hj h6, h7⟩

/-- `clone_left` and `clone_right`, if others pause. -/
theorem C79_cloneSide (hP : PTame P) (h : Conf.PReach P zst c) {s : Side} {k : Nat} (hp : P c (.cloneSide s k)) (e : c.start (.cloneSide s k) = some c1)
    (hw : ¬ c.mustWait (.cloneSide s k)) {n : Nat} (hn : c.soloTurns (.cloneSide s k) = some n) :
    ∃ m c2, m ≤ n ∧ steps c1 c.calls.length m = .ok c2 ∧ ∃ cl, c2.calls[c.calls.length]? = some cl ∧ cl.fin = true ∧ cl.pc = .done .handle := by
  have r := Conf.PReach.start h _ hp e
  cases SStep.of e with
  | cloneSide _ _ d g hk =>
  simp only [Conf.soloTurns, hk, Option.map_some, Option.some.injEq, Conf.levels] at hn
  obtain ⟨m, c2, hm, w, ha⟩ := solo_side hP r start_shared (shared_latch (f := Call.cloneLatch)
    (fun cl hcl hl => hw ⟨d, g, false, cl, hk, hcl, hl⟩) fun _ _ => rfl)
  exact ⟨m, c2, by rw [← hn]; exact hm, w.run, At.fin ha⟩

/-- `downgrade`, if others pause. -/
theorem C79_downgrade (hP : PTame P) (h : Conf.PReach P zst c) {k : Nat} (hp : P c (.downgrade k)) (e : c.start (.downgrade k) = some c1)
    (hw : ¬ c.mustWait (.downgrade k)) :
    ∃ c2, steps c1 c.calls.length 2 = .ok c2 ∧ ∃ cl, c2.calls[c.calls.length]? = some cl ∧ cl.fin = true ∧ cl.pc = .done .handle := by
  have r := Conf.PReach.start h _ hp e
  cases SStep.of e with
  | downgrade _ d g hk =>
  obtain ⟨c2, w, ha⟩ := solo_down hP r start_shared (shared_latch (f := Call.downLatch)
    (fun cl hcl hl => hw ⟨d, g, false, cl, hk, hcl, hl⟩) fun _ _ => rfl)
  exact ⟨c2, w.run, At.fin ha⟩

/-- `upgrade`, if others pause. It need not wait for anybody. -/
theorem C79_upgrade (hP : PTame P) (h : Conf.PReach P zst c) {k : Nat} (hp : P c (.upgrade k)) (e : c.start (.upgrade k) = some c1)
    {n : Nat} (hn : c.soloTurns (.upgrade k) = some n) :
    ∃ m c2, m ≤ n ∧ steps c1 c.calls.length m = .ok c2 ∧ ∃ cl, c2.calls[c.calls.length]? = some cl ∧ cl.fin = true ∧
      (cl.pc = .done .handle ∨ cl.pc = .done .none) := by
  have r := Conf.PReach.start h _ hp e
  cases SStep.of e with
  | upgrade _ d g b hk =>
  simp only [Conf.soloTurns, hk, Option.map_some, Option.some.injEq, Conf.levels] at hn
  obtain ⟨m, c2, hm, w, re, ha, hr⟩ := solo_up hP r start_shared
  obtain ⟨cl, h1, h2, h3⟩ := At.fin ha
  refine ⟨m, c2, ?_, w.run, cl, h1, h2, ?_⟩
  · rw [← hn]; cases d <;> exact hm
  · rw [h3, hr]
    cases d with
    | none => exact .inr rfl
    | some d => dsimp only; split <;> simp

/-- Any call, if others pause: it returns after at most as many steps as `soloTurns` says, unless it has to wait for a gate. -/
theorem C79_alone (hP : PTame P) (h : Conf.PReach P zst c) {op : Op α} (hp : P c op) (e : c.start op = some c1) (hw : ¬ c.mustWait op)
    {n : Nat} (hn : c.soloTurns op = some n) :
    ∃ m c2, m ≤ n ∧ steps c1 c.calls.length m = .ok c2 ∧ ∃ cl, c2.calls[c.calls.length]? = some cl ∧ cl.fin = true := by
  have rest : c.maxTurns op = some n →
      ∃ m c2, m ≤ n ∧ steps c1 c.calls.length m = .ok c2 ∧ ∃ cl, c2.calls[c.calls.length]? = some cl ∧ cl.fin = true := fun hn => by
    obtain ⟨c2, h1, _, h2⟩ := steps_moves hP (i := c.calls.length) n (.start h op hp e)
    exact ⟨n, c2, Nat.le_refl _, h1, C66_bounded hP h hp e hn h2 (by simp)⟩
  cases op with
  | cloneSide s k =>
    obtain ⟨m, c2, h1, h2, cl, h3, h4, _⟩ := C79_cloneSide hP h hp e hw hn
    exact ⟨m, c2, h1, h2, cl, h3, h4⟩
  | upgrade k =>
    obtain ⟨m, c2, h1, h2, cl, h3, h4, _⟩ := C79_upgrade hP h hp e hn
    exact ⟨m, c2, h1, h2, cl, h3, h4⟩
  | downgrade k =>
    cases hn
    obtain ⟨c2, h2, cl, h3, h4, _⟩ := C79_downgrade hP h hp e hw
    exact ⟨2, c2, Nat.le_refl _, h2, cl, h3, h4⟩
  | _ => exact rest hn

/-- No call has to wait while nobody is inside `get_mut` or `into_mut`. -/
theorem C79_free (hP : PTame P) (h : Conf.PReach P zst c) (h1 : c.flying Op.isGetMut = false) (h2 : c.flying Op.isIntoMut = false) (op : Op α) :
    ¬ c.mustWait op := by
  have A := h.IA' hP
  have no : ∀ cl ∈ c.calls, cl.cloneLatch = none ∧ cl.downLatch = none := by
    intro cl hcl
    obtain ⟨j, hj⟩ := List.mem_iff_getElem?.1 hcl
    have ho := A.clear.ops j cl hj
    have g1 := List.any_eq_false.1 h1 cl hcl
    have g2 := List.any_eq_false.1 h2 cl hcl
    cases hpc : cl.pc <;> simp_all [opOK, Call.fin, Pc.isDone, Call.cloneLatch, Call.downLatch]
  cases op with
  | cloneSide s k =>
    rintro ⟨d, g, b, cl, _, hc, hl⟩
    rw [(no cl hc).1] at hl; cases hl
  | downgrade k =>
    rintro ⟨d, g, b, cl, _, hc, hl⟩
    rw [(no cl hc).2] at hl; cases hl
  | _ => exact id

/-- If a call has to wait for a gate, then it waits as long as the others pause. -/
theorem C79_waits (hP : PTame P) (h : Conf.PReach P zst c) {op : Op α} (hp : P c op) (e : c.start op = some c1) (hw : c.mustWait op) (n : Nat) :
    ∃ c2, steps c1 c.calls.length n = .ok c2 ∧ c2.a = c1.a ∧ ∃ cl, c2.calls[c.calls.length]? = some cl ∧ cl.fin = false := by
  have r := Conf.PReach.start h _ hp e
  have stay : ∀ pc : Pc α, pc.isDone = false → (∀ a' n', Arc.PStep c1.a pc a' n' → a' = c1.a ∧ n' = { pc := pc }) → c1.At c.calls.length pc [] →
      ∃ c2, steps c1 c.calls.length n = .ok c2 ∧ c2.a = c1.a ∧ ∃ cl, c2.calls[c.calls.length]? = some cl ∧ cl.fin = false := by
    intro pc hd hs ha
    suffices key : ∃ c2, Went P zst c1 c.calls.length n c2 ∧ c2.a = c1.a ∧ c2.At c.calls.length pc [] by
      obtain ⟨c2, w, h1, cl, h2, h3, h4⟩ := key
      exact ⟨c2, w.run, h1, cl, h2, by simp [Call.fin, h3, hd]⟩
    clear hw
    induction n with
    | zero => exact ⟨c1, ⟨rfl, r⟩, rfl, ha⟩
    | succ n ih =>
      obtain ⟨c2, w, h1, h2⟩ := ih
      obtain ⟨c3, a3, n3, w3, s3, e3, ha3⟩ := solo_pc hP w.ok h2
      rw [h1] at s3
      obtain ⟨rfl, rfl⟩ := hs _ _ s3
      exact ⟨c3, w.trans w3, e3, ha3⟩
  have G := (h.BI hP).gi
  have ea := (Conf.start_T e).2
  cases SStep.of e with
  | cloneSide s k d g hk =>
    obtain ⟨d', g', b', cl, hk', hc, hl⟩ := hw
    rw [hk] at hk'; cases hk'
    refine stay (.wait d g s) rfl (fun a' n' hs => ?_) start_shared
    cases hs with
    | waitC => exact ⟨rfl, rfl⟩
    | waitO _ _ _ v hv hg => rw [ea] at hv; rw [(gate_closed_iff G hv).1.2 ⟨cl, hc, hl⟩] at hg; cases hg
  | downgrade k d g hk =>
    obtain ⟨d', g', b', cl, hk', hc, hl⟩ := hw
    rw [hk] at hk'; cases hk'
    refine stay (.dg0 d g) rfl (fun a' n' hs => ?_) start_shared
    cases hs with
    | dg0C => exact ⟨rfl, rfl⟩
    | dg0O _ _ v hv hg => rw [ea] at hv; rw [(gate_closed_iff G hv).2.2 ⟨cl, hc, hl⟩] at hg; cases hg
  | _ => exact hw.elim

/-- The number of halvings is at most logarithmic in the size of the whole. -/
theorem C79_levels (hP : PTame P) (h : Conf.PReach P zst c) {m : Nat} (hm : ∀ b, b < c.a.b.sk.nbuf → c.a.b.sk.blen b ≤ 2 ^ m) {k : Nat} {en : Ent}
    (hk : c.get k = some en) : c.levels en ≤ m + 1 := by
  have A := h.IA' hP
  obtain ⟨hd, b⟩ := en
  cases hd with
  | strong d g =>
    obtain ⟨v, hv, _⟩ := size_strong A hk
    exact h.depth hP hm (A.bi.heap.good.shape.lt hv) (A.bi.ents k _ hk)
  | weak d g =>
    cases d with
    | none => exact Nat.zero_le _
    | some d => obtain ⟨h1, h2⟩ := A.bi.ents k _ hk d rfl; exact h.depth hP hm h1 h2
  | uniq r => exact Nat.zero_le _

/-! ## Examples -/

namespace Arc

/-- Handle 3 is another handle to the slice of handle 2, a left half of a right half, handle 4 a `WeakSlice` of that right half. A call of `get_mut` (6) on
handle 2 has closed both gates, and pauses. -/
def pausedTree : List (PAct Nat) := treeLeft ++ [.act (.op (.clone 2)), .act (.run 4 30), .act (.op (.downgrade 1)), .act (.run 5 30),
  .act (.op (.getMut 2)), .act (.run 6 3)]

/-- Only the whole (handle 0) and a `WeakSlice` (3) of its left quarter are left: the guards of the left half and of the quarter are gone. -/
def farLeft : List (PAct Nat) := [.act (.op (.new [5, 6, 7, 8, 9])), .act (.run 0 30), .act (.op (.cloneSide .L 0)), .act (.run 1 30),
  .act (.op (.cloneSide .L 1)), .act (.run 2 30), .act (.op (.downgrade 2)), .act (.run 3 30), .act (.op (.drop 1)), .act (.run 4 60),
  .act (.op (.drop 2)), .act (.run 5 60)]

theorem paused_reach : Conf.PReach (fun c op => c.strict op = true) false (pafter pausedTree) :=
  (run_of (c := Conf.init false) (as := pausedTree) (by decide +kernel) rfl).reach .init

theorem farLeft_reach : Conf.PReach (fun c op => c.strict op = true) false (pafter farLeft) :=
  (run_of (c := Conf.init false) (as := farLeft) (by decide +kernel) rfl).reach .init

/-- No guard the call would wait for is held. -/
theorem no_wait {c : Conf α} {s : Side} {k d g : Nat} {b : Bool} (hk : c.get k = some ⟨.strong d g, b⟩) (h : (c.calls.all fun cl => cl.cloneLatch != some g) = true) :
    ¬ c.mustWait (.cloneSide s k) := by
  rintro ⟨d', g', b', cl, hk', hc, hl⟩
  rw [hk] at hk'; cases hk'
  have := List.all_eq_true.1 h cl hc
  simp [hl] at this

end Arc

/-- The hypotheses of `C79_cloneSide` and `C79_alone` are met while a `get_mut` elsewhere pauses, ... -/
example : Conf.PReach (fun c op => c.strict op = true) false (pafter pausedTree) ∧ (pafter pausedTree).strict (.cloneSide .R 1) = true ∧
    ((pafter pausedTree).start (.cloneSide .R 1)).isSome = true ∧ ¬ (pafter pausedTree).mustWait (.cloneSide .R 1) ∧
    (pafter pausedTree).soloTurns (.cloneSide .R 1) = some 21 ∧ (pafter pausedTree).soloTurns (.upgrade 4) = some 12 :=
  ⟨paused_reach, by decide +kernel, by decide +kernel, no_wait (d := 2) (g := 1) (b := false) (by decide +kernel) (by decide +kernel), by decide +kernel, by decide +kernel⟩

/-- ... and those of `C79_waits` on the slice `get_mut` has been called on. -/
example : (pafter pausedTree).strict (.cloneSide .L 3) = true ∧ ((pafter pausedTree).start (.cloneSide .L 3)).isSome = true ∧
    (pafter pausedTree).mustWait (.cloneSide .L 3) ∧ (pafter pausedTree).mustWait (.downgrade 3) := by
  refine ⟨by decide +kernel, by decide +kernel, ⟨3, 2, false, ((pafter pausedTree).calls[6]?).get (by decide +kernel), by decide +kernel, ?_, by decide +kernel⟩,
    ⟨3, 2, false, ((pafter pausedTree).calls[6]?).get (by decide +kernel), by decide +kernel, ?_, by decide +kernel⟩⟩
  all_goals exact List.mem_iff_getElem?.2 ⟨6, by simp⟩

/-- `upgrade` of the `WeakSlice` of the quarter makes two guards, and takes 16 steps. The bound is 18. -/
example : (pafter farLeft).soloTurns (.upgrade 3) = some 18 ∧ (pafter farLeft).strict (.upgrade 3) = true ∧
    ((pafter (farLeft ++ [.act (.op (.upgrade 3)), .act (.run 6 15)])).calls[6]?.map Call.fin) = some false ∧
    ((pafter (farLeft ++ [.act (.op (.upgrade 3)), .act (.run 6 16)])).calls[6]?.map Call.fin) = some true :=
  ⟨by decide +kernel, by decide +kernel, by decide +kernel, by decide +kernel⟩

/-- A call in the middle: the `get_mut` of `pausedTree` returns when it is given turns again. -/
example : ((pafter pausedTree).calls[6]?.map Call.fin) = some false ∧
    ((pafter (pausedTree ++ [.act (.run 6 4)])).calls[6]?.map Call.fin) = some true :=
  ⟨by decide +kernel, by decide +kernel⟩

/-- The rules of the examples are allowed. -/
example : PTame (fun (c : Conf Nat) op => c.strict op = true) := PStrict.tame fun _ _ _ _ h => h

/-- The hypotheses of `C79_free` and `C79_levels` are met. -/
example : Conf.PReach (fun c op => c.strict op = true) false (pafter farLeft) ∧ (pafter farLeft).flying Op.isGetMut = false ∧
    (pafter farLeft).flying Op.isIntoMut = false ∧ (∀ b, b < (pafter farLeft).a.b.sk.nbuf → (pafter farLeft).a.b.sk.blen b ≤ 2 ^ 3) ∧
    ((pafter farLeft).get 3).map (pafter farLeft).levels = some 2 :=
  ⟨farLeft_reach, by decide +kernel, by decide +kernel, by decide +kernel, by decide +kernel⟩

end Verif
