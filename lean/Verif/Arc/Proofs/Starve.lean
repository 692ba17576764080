import Verif.Arc.Proofs.Turns
/-!
# Calls that others can hold up for ever
-/

namespace Verif.Arc
open Verif.Spec (Side Slot Family Rng End)
open Verif.Rc
variable {α : Type} {P : Rules α} {c : Conf α}

section
variable {a a' : Arena α} {hs : List (Option Ent)} {calls : List (Call α)} {cl : Call α} {n : Next α}

/-- The last call has a turn. -/
theorem step_last (ht : cl.tasks = []) (e : pcStep a cl.pc = .ok (a', n)) :
    (⟨a, hs, calls ++ [cl]⟩ : Conf α).step calls.length =
      .ok ⟨a', hs ++ n.push.map some, calls ++ [{ cl with pc := n.pc, tasks := n.tasks, out := cl.out ++ List.range' hs.length n.push.length }]⟩ := by
  simp [Conf.step, callStep, ht, e, bind, Except.bind, pure, Except.pure]

theorem step_last_task {t : ATask} {ts new : List ATask} (ht : cl.tasks = t :: ts) (e : ataskStep a t = .ok (a', new)) :
    (⟨a, hs, calls ++ [cl]⟩ : Conf α).step calls.length = .ok ⟨a', hs, calls ++ [{ cl with tasks := new ++ ts }]⟩ := by
  simp [Conf.step, callStep, ht, e, bind, Except.bind, pure, Except.pure]

/-- A turn in which nothing happens. -/
theorem step_idle {i : Nat} (hi : calls[i]? = some cl) (ht : cl.tasks = []) (e : pcStep a cl.pc = .ok (a, { pc := cl.pc })) :
    (⟨a, hs, calls⟩ : Conf α).step i = .ok ⟨a, hs, calls⟩ := by
  obtain ⟨hl, hi'⟩ := List.getElem?_eq_some_iff.1 hi
  have : ({ cl with tasks := ([] : List ATask) } : Call α) = cl := by cases cl; simp_all
  simp [Conf.step, callStep, hi, ht, e, bind, Except.bind, pure, Except.pure, this]
  rw [← hi']; exact List.set_getElem_self hl

end

/-- `downgrade` (call `i`) and `clone_left` or `clone_right` (call `j`) of a slice wait, and there is another handle to the same slice. -/
structure Kept0 (i j : Nat) (s : Side) (c : Conf α) (d g k : Nat) (v : GuardV) : Prop where
  hk : c.get k = some ⟨.strong d g, false⟩
  nb : ∀ cl ∈ c.calls, cl.borrow ≠ some k
  lt : ∀ cl ∈ c.calls, ∀ b, cl.borrow = some b → b < c.hs.length
  ci : ∃ cl, c.calls[i]? = some cl ∧ cl.tasks = [] ∧ cl.pc = .dg0 d g
  cj : ∃ cl, c.calls[j]? = some cl ∧ cl.tasks = [] ∧ cl.pc = .wait d g s
  fin : ∀ (l : Nat) cl, c.calls[l]? = some cl → l ≠ i → l ≠ j → cl.fin = true
  hg : c.a.guard g = some v
  dg : v.dGate = false
  cg : v.cGate = false
  w : c.a.gW g = 1
  s : c.a.gS g ≠ 1

/-- Call `get_mut` on the other handle, and give the waiting calls a turn whenever the gate they wait for is closed. -/
theorem Kept0.round {i j : Nat} {s : Side} {d g k : Nat} {v : GuardV} (hP : ∀ c k, P c (.getMut k)) (K : Kept0 i j s c d g k v) :
    ∃ c' is v', Moves P c c' is ∧ 0 < is.count i ∧ 0 < is.count j ∧ Kept0 i j s c' d g c.hs.length v' ∧
      c'.calls.map (·.op) = c.calls.map (·.op) ++ [.getMut k] := by
  obtain ⟨a, hs, calls⟩ := c
  obtain ⟨hk, nb, lt, ⟨cli, hi, hti, hpi⟩, ⟨clj, hj, htj, hpj⟩, fin, hg, dg, cg, hw, hs1⟩ := K
  have hb : (⟨a, hs, calls⟩ : Conf α).borrowed k = false := by
    simp only [Conf.borrowed, List.any_eq_false, Bool.and_eq_true, beq_iff_eq, not_and]
    exact fun cl hcl _ => nb cl hcl
  have app : ∀ {l : Nat} {x cl : Call α}, calls[l]? = some cl → (calls ++ [x])[l]? = some cl := by
    intro l x cl h
    rw [List.getElem?_append_left (List.getElem?_eq_some_iff.1 h).1]; exact h
  have hn : (⟨a, hs, calls⟩ : Conf α).node k = some d := by simp only [Conf.node, hk]
  let cl0 : Call α := ⟨.getMut k, .gm0 d g, [], none, some d, []⟩
  let hs' := hs.set k none
  have hlen : hs'.length = hs.length := by simp [hs']
  have e0 : (⟨a, hs, calls⟩ : Conf α).start (.getMut k) = some ⟨a, hs', calls ++ [cl0]⟩ := by
    simp only [Conf.start, hk, hb, Conf.taking, hn]; rfl
  let a1 := a.setG g { v with dGate := true }
  have g1 : a1.getG g = .ok { v with dGate := true } := by simp [a1, Arena.getG, Arena.setG, upd]
  have e1 : (⟨a, hs', calls ++ [cl0]⟩ : Conf α).step calls.length = .ok ⟨a1, hs', calls ++ [{ cl0 with pc := .gm1 d g }]⟩ := by
    rw [step_last (n := { pc := .gm1 d g }) (a' := a1) rfl (by simp [cl0, pcStep, getG_of hg, dg, bind, Except.bind, pure, Except.pure, a1])]
    simp [cl0]
  have e2 : (⟨a1, hs', calls ++ [{ cl0 with pc := .gm1 d g }]⟩ : Conf α).step i = .ok ⟨a1, hs', calls ++ [{ cl0 with pc := .gm1 d g }]⟩ :=
    step_idle (app hi) hti (by simp [hpi, pcStep, g1, bind, Except.bind, pure, Except.pure])
  have e3 : (⟨a1, hs', calls ++ [{ cl0 with pc := .gm1 d g }]⟩ : Conf α).step calls.length = .ok ⟨a1, hs', calls ++ [{ cl0 with pc := .gm2 d g }]⟩ := by
    rw [step_last (n := { pc := .gm2 d g }) (a' := a1) rfl (by
      have : a1.gW g = 1 := hw
      simp [pcStep, g1, bind, Except.bind, pure, Except.pure, this])]
    simp [cl0]
  let a2 := a1.setG g { v with dGate := true, cGate := true }
  have g2 : a2.getG g = .ok { v with dGate := true, cGate := true } := by simp [a2, Arena.getG, Arena.setG, upd]
  have e4 : (⟨a1, hs', calls ++ [{ cl0 with pc := .gm2 d g }]⟩ : Conf α).step calls.length = .ok ⟨a2, hs', calls ++ [{ cl0 with pc := .gm3 d g }]⟩ := by
    rw [step_last (n := { pc := .gm3 d g }) (a' := a2) rfl (by simp [pcStep, g1, cg, bind, Except.bind, pure, Except.pure, a2])]
    simp [cl0]
  have e5 : (⟨a2, hs', calls ++ [{ cl0 with pc := .gm3 d g }]⟩ : Conf α).step j = .ok ⟨a2, hs', calls ++ [{ cl0 with pc := .gm3 d g }]⟩ :=
    step_idle (app hj) htj (by simp [hpj, pcStep, g2, bind, Except.bind, pure, Except.pure])
  have e6 : (⟨a2, hs', calls ++ [{ cl0 with pc := .gm3 d g }]⟩ : Conf α).step calls.length = .ok ⟨a2, hs', calls ++ [{ cl0 with pc := .gmOpenC d g false }]⟩ := by
    rw [step_last (n := { pc := .gmOpenC d g false }) (a' := a2) rfl (by
      have : a2.gS g ≠ 1 := hs1
      simp [pcStep, g2, bind, Except.bind, pure, Except.pure, this])]
    simp [cl0]
  let a3 := a2.setG g { v with dGate := true, cGate := false }
  have g3 : a3.getG g = .ok { v with dGate := true, cGate := false } := by simp [a3, Arena.getG, Arena.setG, upd]
  have e7 : (⟨a2, hs', calls ++ [{ cl0 with pc := .gmOpenC d g false }]⟩ : Conf α).step calls.length = .ok ⟨a3, hs', calls ++ [{ cl0 with pc := .gmOpenD d g false }]⟩ := by
    rw [step_last (n := { pc := .gmOpenD d g false }) (a' := a3) rfl (by simp [pcStep, g2, bind, Except.bind, pure, Except.pure, a3])]
    simp [cl0]
  let a4 := a3.setG g { v with dGate := false, cGate := false }
  have e8 : (⟨a3, hs', calls ++ [{ cl0 with pc := .gmOpenD d g false }]⟩ : Conf α).step calls.length =
      .ok ⟨a4, hs' ++ [some ⟨.strong d g, false⟩], calls ++ [{ cl0 with pc := .done .none, out := [hs.length] }]⟩ := by
    rw [step_last (n := { pc := .done .none, push := [⟨.strong d g, false⟩] }) (a' := a4) rfl (by simp [pcStep, g3, bind, Except.bind, pure, Except.pure, a4])]
    simp [cl0, hlen]
  refine ⟨_, _, { v with dGate := false, cGate := false },
    (((((((((Moves.refl.start _ (hP _ _) e0).step _ e1).step _ e2).step _ e3).step _ e4).step _ e5).step _ e6).step _ e7).step _ e8), ?_, ?_, ?_, by simp [cl0]⟩
  · simp [List.count_cons]; omega
  · simp [List.count_cons]; omega
  · refine ⟨?_, ?_, ?_, ⟨cli, app hi, hti, hpi⟩, ⟨clj, app hj, htj, hpj⟩, ?_, ?_, rfl, rfl, hw, hs1⟩
    · simp [Conf.get, ← hlen]
    · intro cl hcl
      rcases List.mem_append.1 hcl with h | h
      · intro h2; exact absurd (lt cl h _ h2) (Nat.lt_irrefl _)
      · rw [List.mem_singleton.1 h]; simp [cl0]
    · intro cl hcl b hb
      rcases List.mem_append.1 hcl with h | h
      · have := lt cl h b hb; simp only [List.length_append, hlen]; exact Nat.lt_succ_of_lt this
      · rw [List.mem_singleton.1 h] at hb; cases hb
    · intro l cl hl h1 h2
      rcases List.mem_append.1 (List.mem_of_getElem? hl) with h | h
      · by_cases hll : l < calls.length
        · rw [List.getElem?_append_left hll] at hl; exact fin l cl hl h1 h2
        · rw [List.getElem?_append_right (by omega)] at hl
          have := List.mem_of_getElem? hl
          rw [List.mem_singleton.1 this]; rfl
      · rw [List.mem_singleton.1 h]; rfl
    · simp [a4, Arena.setG, upd]


/-- `upgrade` (call `i`) is about to publish a guard, as `upgrade` of handle `k` would be. -/
structure Kept1 (i k d : Nat) (c : Conf α) : Prop where
  hk : ∃ g m, c.get k = some ⟨.weak (some d) g, m⟩
  lt : ∀ cl ∈ c.calls, ∀ b, cl.borrow = some b → b < c.hs.length
  ci : ∃ cl, c.calls[i]? = some cl ∧ cl.tasks = [] ∧ cl.pc = .gCas d (c.a.box d) none [] d
  fin : ∀ (l : Nat) cl, c.calls[l]? = some cl → l ≠ i → cl.fin = true
  node : ∃ v, c.a.b.sk.node d = some (.data v)
  st : c.a.b.strong d = 1
  par : c.a.par d = none
  dead : ∀ g, c.a.tgt (c.a.box d) = some g → c.a.gS g = 0
  box : c.a.box d < c.a.nbox

theorem step_set {a a' : Arena α} {hs : List (Option Ent)} {calls : List (Call α)} {cl : Call α} {n : Next α} {i : Nat} (hi : calls[i]? = some cl) (ht : cl.tasks = []) (hpush : n.push = []) (e : pcStep a cl.pc = .ok (a', n)) :
    (⟨a, hs, calls⟩ : Conf α).step i = .ok ⟨a', hs, calls.set i { cl with pc := n.pc, tasks := n.tasks }⟩ := by
  simp [Conf.step, callStep, hi, ht, e, bind, Except.bind, pure, Except.pure, hpush]

/-- Call `upgrade` on the other handle, drop the result, and let the first call look again. -/
theorem Kept1.round {i k d : Nat} (hP : ∀ c k, P c (.upgrade k)) (hP' : ∀ c k, P c (.drop k)) (K : Kept1 i k d c) :
    ∃ c' is, Moves P c c' is ∧ 0 < is.count i ∧ Kept1 i k d c' ∧
      c'.calls.map (·.op) = c.calls.map (·.op) ++ [.upgrade k, .drop c.hs.length] := by
  obtain ⟨a, hs, calls⟩ := c
  obtain ⟨⟨g0, m, hk⟩, lt, ⟨cli, hi, hti, hpi⟩, fin, ⟨v, hv⟩, hst, hpar, hdead, hbox⟩ := K
  have hil : i < calls.length := (List.getElem?_eq_some_iff.1 hi).1
  have hkl : k < hs.length := Conf.get_lt hk
  have hv : a.b.sk.node d = some (.data v) := hv
  have hst : a.b.strong d = 1 := hst
  have hpar : a.par d = none := hpar
  have hdead : ∀ g, a.tgt (a.box d) = some g → a.gS g = 0 := hdead
  have hbox : a.box d < a.nbox := hbox
  have hpi : cli.pc = .gCas d (a.box d) none [] d := hpi
  have hn : (⟨a, hs, calls⟩ : Conf α).node k = some d := by simp only [Conf.node, hk]
  let u0 : Call α := ⟨.upgrade k, .up (some d), [], some k, some d, []⟩
  have e0 : (⟨a, hs, calls⟩ : Conf α).start (.upgrade k) = some ⟨a, hs, calls ++ [u0]⟩ := by
    simp only [Conf.start, hk, Conf.shared, hn]; rfl
  let a1 := a.withB { a.b with strong := upd a.b.strong d 2 }
  have gd1 : a1.b.getData d = .ok v := by simp [a1, Arena.withB, Heap.getData, hv]
  have e1 : (⟨a, hs, calls ++ [u0]⟩ : Conf α).step calls.length = .ok ⟨a1, hs, calls ++ [{ u0 with pc := .gLoad d [] d }]⟩ := by
    rw [step_last (n := { pc := .gLoad d [] d }) (a' := a1) rfl (by simp [u0, pcStep, Heap.incS, hst, bind, Except.bind, pure, Except.pure, a1])]
    simp [u0]
  have e2 : (⟨a1, hs, calls ++ [{ u0 with pc := .gLoad d [] d }]⟩ : Conf α).step calls.length = .ok ⟨a1, hs, calls ++ [{ u0 with pc := .gTry d (a.box d) none [] d }]⟩ := by
    rw [step_last (n := { pc := .gTry d (a.box d) none [] d }) (a' := a1) rfl (by simp only [pcStep, gd1, bind, Except.bind, pure, Except.pure]; rfl)]
    simp [u0]
  have e3 : (⟨a1, hs, calls ++ [{ u0 with pc := .gTry d (a.box d) none [] d }]⟩ : Conf α).step calls.length = .ok ⟨a1, hs, calls ++ [{ u0 with pc := .gPar d (a.box d) [] d }]⟩ := by
    rw [step_last (n := { pc := .gPar d (a.box d) [] d }) (a' := a1) rfl (by
      simp only [pcStep]
      show (match a.tgt (a.box d) with | none => _ | some g => _) = _
      cases ht : a.tgt (a.box d) with
      | none => rfl
      | some g =>
        have : a1.gS g = 0 := hdead g ht
        simp [this])]
    simp [u0]
  have e4 : (⟨a1, hs, calls ++ [{ u0 with pc := .gPar d (a.box d) [] d }]⟩ : Conf α).step calls.length = .ok ⟨a1, hs, calls ++ [{ u0 with pc := .gCas d (a.box d) none [] d }]⟩ := by
    rw [step_last (n := { pc := .gCas d (a.box d) none [] d }) (a' := a1) rfl (by
      have : a1.par d = none := hpar
      simp only [pcStep, gd1, bind, Except.bind, pure, Except.pure, this])]
    simp [u0]
  let a2 : Arena α := { a1 with
          ng := a1.ng + 1
          guard := upd a1.guard a1.ng (some ⟨none, false, false⟩)
          gS := upd a1.gS a1.ng 1
          gW := upd a1.gW a1.ng 1
          gOf := upd a1.gOf a1.ng d }.newBox d (some a1.ng)
  have e5 : (⟨a1, hs, calls ++ [{ u0 with pc := .gCas d (a.box d) none [] d }]⟩ : Conf α).step calls.length = .ok ⟨a2, hs, calls ++ [{ u0 with pc := .gRet a.ng [] d }]⟩ := by
    rw [step_last (n := { pc := .gRet a.ng [] d }) (a' := a2) rfl (by
      have : a1.box d = a.box d := rfl
      simp only [pcStep, gd1, bind, Except.bind, pure, Except.pure, this, if_true]; rfl)]
    simp [u0]
  let u1 : Call α := { u0 with pc := .done .handle, out := [hs.length] }
  have e6 : (⟨a2, hs, calls ++ [{ u0 with pc := .gRet a.ng [] d }]⟩ : Conf α).step calls.length = .ok ⟨a2, hs ++ [some ⟨.strong d a.ng, false⟩], calls ++ [u1]⟩ := by
    rw [step_last (n := { pc := .done .handle, push := [⟨.strong d a.ng, false⟩] }) (a' := a2) rfl (by simp [pcStep])]
    simp [u0, u1]
  -- drop
  let c1 : Conf α := ⟨a2, hs ++ [some ⟨.strong d a.ng, false⟩], calls ++ [u1]⟩
  have hk1 : c1.get hs.length = some ⟨.strong d a.ng, false⟩ := by simp [c1, Conf.get]
  have hb1 : c1.borrowed hs.length = false := by
    simp only [Conf.borrowed, List.any_eq_false, Bool.and_eq_true, beq_iff_eq, not_and]
    intro cl hcl _ h
    rcases List.mem_append.1 hcl with h1 | h1
    · exact absurd (lt cl h1 _ h) (Nat.lt_irrefl _)
    · rw [List.mem_singleton.1 h1] at h
      have h : some k = some hs.length := h
      cases h; omega
  have hn1 : c1.node hs.length = some d := by simp only [Conf.node, hk1]
  let d0 : Call α := ⟨.drop hs.length, .done .unit, [.slice d a.ng], none, some d, []⟩
  let hs2 := hs ++ [none]
  have e7 : c1.start (.drop hs.length) = some ⟨a2, hs2, (calls ++ [u1]) ++ [d0]⟩ := by
    simp only [Conf.start, hk1, hb1, Conf.taking, hn1]
    simp [c1, hs2, d0]
  let a3 := a2.withB { a2.b with strong := upd a2.b.strong d 1 }
  have e8 : (⟨a2, hs2, (calls ++ [u1]) ++ [d0]⟩ : Conf α).step (calls ++ [u1]).length = .ok ⟨a3, hs2, (calls ++ [u1]) ++ [{ d0 with tasks := [.guard a.ng] }]⟩ := by
    rw [step_last_task (t := .slice d a.ng) (ts := []) (new := [.guard a.ng]) (a' := a3) rfl (by
      have : a2.b.strong d = 2 := by simp [a2, a1, Arena.newBox, Arena.withB, upd]
      simp [ataskStep, dropStrong, this, bind, Except.bind, pure, Except.pure, a3])]
    rfl
  let a4 : Arena α := { a3 with gS := upd a3.gS a.ng 0, guard := upd a3.guard a.ng none }
  have e9 : (⟨a3, hs2, (calls ++ [u1]) ++ [{ d0 with tasks := [.guard a.ng] }]⟩ : Conf α).step (calls ++ [u1]).length = .ok ⟨a4, hs2, (calls ++ [u1]) ++ [{ d0 with tasks := [] }]⟩ := by
    rw [step_last_task (t := .guard a.ng) (ts := []) (new := []) (a' := a4) rfl (by
      have h1 : a3.gS a.ng = 1 := by simp [a3, a2, a1, Arena.newBox, Arena.withB, upd]
      have h2 : a3.guard a.ng = some ⟨none, false, false⟩ := by simp [a3, a2, a1, Arena.newBox, Arena.withB, upd]
      simp [ataskStep, Arena.dropG, h1, h2, a4])]
    rfl
  -- the first call
  let cs := (calls ++ [u1]) ++ [{ d0 with tasks := [] }]
  have hci : cs[i]? = some cli := by
    simp only [cs, List.append_assoc]; rw [List.getElem?_append_left hil]; exact hi
  have hlen : i < cs.length := (List.getElem?_eq_some_iff.1 hci).1
  have hb4 : a4.box d = a.nbox := by simp [a4, a3, a2, a1, Arena.newBox, Arena.withB, upd]
  have ht4 : a4.tgt a.nbox = some a.ng := by simp [a4, a3, a2, a1, Arena.newBox, Arena.withB, upd]
  have hg4 : a4.gS a.ng = 0 := by simp [a4, upd]
  have hp4 : a4.par d = none := hpar
  have hv4 : a4.b.sk.node d = some (.data v) := hv
  have gd4 : a4.b.getData d = .ok v := by simp [Heap.getData, hv4]
  have e10 : (⟨a4, hs2, cs⟩ : Conf α).step i = .ok ⟨a4, hs2, cs.set i { cli with pc := .gTry d a.nbox none [] d, tasks := [] }⟩ :=
    step_set (n := { pc := .gTry d a.nbox none [] d }) hci hti rfl (by
      have : ¬ a.nbox = a.box d := by omega
      simp [hpi, pcStep, gd4, hb4, bind, Except.bind, pure, Except.pure, this])
  have e11 : (⟨a4, hs2, cs.set i { cli with pc := .gTry d a.nbox none [] d, tasks := [] }⟩ : Conf α).step i = .ok ⟨a4, hs2, cs.set i { cli with pc := .gPar d a.nbox [] d, tasks := [] }⟩ := by
    rw [step_set (cl := { cli with pc := .gTry d a.nbox none [] d, tasks := [] }) (a' := a4) (n := { pc := .gPar d a.nbox [] d })
      (List.getElem?_set_self hlen) rfl rfl (by simp [pcStep, ht4, hg4])]
    rw [List.set_set]
  have e12 : (⟨a4, hs2, cs.set i { cli with pc := .gPar d a.nbox [] d, tasks := [] }⟩ : Conf α).step i = .ok ⟨a4, hs2, cs.set i { cli with pc := .gCas d a.nbox none [] d, tasks := [] }⟩ := by
    rw [step_set (cl := { cli with pc := .gPar d a.nbox [] d, tasks := [] }) (a' := a4) (n := { pc := .gCas d a.nbox none [] d })
      (List.getElem?_set_self hlen) rfl rfl (by simp [pcStep, gd4, hp4, bind, Except.bind, pure, Except.pure])]
    rw [List.set_set]
  refine ⟨_, _, (((((((((((((Moves.refl.start _ (hP _ _) e0).step _ e1).step _ e2).step _ e3).step _ e4).step _ e5).step _ e6).start _ (hP' _ _) e7).step _ e8).step _ e9).step _ e10).step _ e11).step _ e12), ?_, ?_, ?_⟩
  · simp [List.count_cons]
  · refine ⟨⟨g0, m, ?_⟩, ?_, ⟨_, List.getElem?_set_self hlen, rfl, ?_⟩, ?_, ⟨v, hv4⟩, ?_, hp4, ?_, ?_⟩
    · have : (⟨a, hs, calls⟩ : Conf α).get k = some ⟨.weak (some d) g0, m⟩ := hk
      simp only [Conf.get, hs2] at this ⊢
      rw [List.getElem?_append_left hkl]; exact this
    · intro cl hcl b hb
      have h2 : hs2.length = hs.length + 1 := by simp [hs2]
      show b < hs2.length
      rw [h2]
      rcases List.mem_or_eq_of_mem_set hcl with h | h
      · simp only [cs, List.mem_append, List.mem_singleton] at h
        rcases h with (h | rfl) | rfl
        · have := lt cl h b hb
          simp only at this
          omega
        · have hb : some k = some b := hb
          cases hb; omega
        · cases hb
      · rw [h] at hb
        have := lt cli (List.mem_of_getElem? hi) b hb
        simp only at this
        omega
    · rw [hb4]
    · intro l cl hl hli
      rw [List.getElem?_set_ne (fun e => hli e.symm)] at hl
      by_cases hll : l < calls.length
      · simp only [cs, List.append_assoc] at hl
        rw [List.getElem?_append_left hll] at hl; exact fin l cl hl hli
      · simp only [cs, List.append_assoc] at hl
        rw [List.getElem?_append_right (by omega)] at hl
        have := List.mem_of_getElem? hl
        simp only [List.cons_append, List.nil_append, List.mem_cons, List.not_mem_nil, or_false] at this
        rcases this with rfl | rfl <;> rfl
    · simp [a4, a3, Arena.withB, upd]
    · intro g hg
      rw [hb4, ht4] at hg; cases hg; exact hg4
    · rw [hb4]; show a.nbox < a.nbox + 1; omega
  · show (cs.set i _).map (·.op) = _
    have h1 : cs.map (·.op) = calls.map (·.op) ++ [.upgrade k, .drop hs.length] := by simp [cs, u1, u0, d0]
    rw [List.map_set, h1]
    have h2 : (calls.map (·.op))[i]? = some cli.op := by simp [hi]
    have h3 : i < (calls.map (·.op)).length := by simpa using hil
    rw [List.set_append_left _ _ h3]
    show (calls.map (·.op)).set i cli.op ++ _ = _
    congr 1
    rw [← (List.getElem?_eq_some_iff.1 h2).2]; exact List.set_getElem_self h3

/-! ## For ever -/

theorem Moves.trans {c1 c2 c3 : Conf α} {is is' : List Nat} (m : Moves P c1 c2 is) (m' : Moves P c2 c3 is') : Moves P c1 c3 (is' ++ is) := by
  induction m' with
  | refl => exact m
  | step _ i e ih => exact .step ih i e
  | start _ op hp e ih => exact .start ih op hp e
  | write _ k en j x hk hw e ih => exact .write ih k en j x hk hw e
  | panic _ i e ih => exact .panic ih i e

theorem Kept0.rounds {i j : Nat} {s : Side} {d g k : Nat} {v : GuardV} (hP : ∀ c k, P c (.getMut k)) (K : Kept0 i j s c d g k v) (n : Nat) :
    ∃ c' is k' v' ops, Moves P c c' is ∧ n ≤ is.count i ∧ n ≤ is.count j ∧ Kept0 i j s c' d g k' v' ∧
      c'.calls.map (·.op) = c.calls.map (·.op) ++ ops ∧ n ≤ ops.countP Op.isGetMut := by
  induction n with
  | zero => exact ⟨c, [], k, v, [], .refl, Nat.zero_le _, Nat.zero_le _, K, by simp, Nat.zero_le _⟩
  | succ n ih =>
    obtain ⟨c1, is, k1, v1, ops, m, h1, h2, K1, h3, h4⟩ := ih
    obtain ⟨c2, is2, v2, m2, h5, h6, K2, h7⟩ := K1.round hP
    refine ⟨c2, _, _, v2, ops ++ [.getMut k1], m.trans m2, ?_, ?_, K2, by rw [h7, h3, List.append_assoc], ?_⟩
    · rw [List.count_append]; omega
    · rw [List.count_append]; omega
    · rw [List.countP_append]; simp [Op.isGetMut]; omega

theorem Kept1.rounds {i k d : Nat} (hP : ∀ c k, P c (.upgrade k)) (hP' : ∀ c k, P c (.drop k)) (K : Kept1 i k d c) (n : Nat) :
    ∃ c' is ops, Moves P c c' is ∧ n ≤ is.count i ∧ Kept1 i k d c' ∧ c'.calls.map (·.op) = c.calls.map (·.op) ++ ops ∧ n ≤ ops.countP Op.isUpgrade := by
  induction n with
  | zero => exact ⟨c, [], [], .refl, Nat.zero_le _, K, by simp, Nat.zero_le _⟩
  | succ n ih =>
    obtain ⟨c1, is, ops, m, h1, K1, h3, h4⟩ := ih
    obtain ⟨c2, is2, m2, h5, K2, h7⟩ := K1.round hP hP'
    refine ⟨c2, _, ops ++ [.upgrade k, .drop c1.hs.length], m.trans m2, ?_, K2, by rw [h7, h3, List.append_assoc], ?_⟩
    · rw [List.count_append]; omega
    · rw [List.countP_append]; simp [Op.isUpgrade, List.countP_cons]; omega

end Verif.Arc
