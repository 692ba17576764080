import Verif.Arc.Proofs.Leak
import Verif.Arc.Proofs.SeqRel
/-!
# A program that leaks as much as one likes
-/

namespace Verif.Arc
open Verif.Spec (Side Slot Family Rng End Obs)
open Verif.Rc
variable {α : Type}

/-- A slice `d` with guard `g`, called 0, is there, no other handle; its left half `e` has been made and is not in use. -/
structure Halved (s : Seq α) (j d g e : Nat) : Prop where
  len : s.tab.length = j
  tab : s.tab[0]?.join = some (0, .plain)
  rest : ∀ k, k ≠ 0 → s.tab[k]?.join = none
  hk : s.c.get 0 = some ⟨.strong d g, false⟩
  fin : ∀ cl ∈ s.c.calls, cl.fin = true
  nd : ∃ v, s.c.a.b.sk.node d = some (.data v) ∧ sameNode v.len .L = false ∧ v.kids .L = some e
  ne : ∃ v, s.c.a.b.sk.node e = some (.data v)
  sd : s.c.a.b.strong d = 1
  se : s.c.a.b.strong e = 1
  par : s.c.a.par e = some d
  gv : ∃ v, s.c.a.guard g = some v ∧ v.cGate = false
  gs : s.c.a.gS g = 1
  glt : g < s.c.a.ng
  td : s.c.a.tgt (s.c.a.box d) = some g
  te : ∀ x, s.c.a.tgt (s.c.a.box e) = some x → s.c.a.gS x = 0
  bd : s.c.a.box d < s.c.a.nbox
  de : d ≠ e

theorem Halved.round {umax : Nat} {s : Seq α} {j d g e : Nat} (H : Halved s j d g e) :
    ∃ s', s.Run umax [.cloneSide .L 0, .drop j] [.handle, .done] s' ∧ Halved s' (j + 1) d g e ∧ s'.c.a.nbox = s.c.a.nbox + 1 := by
  obtain ⟨⟨a, hs, calls⟩, tab⟩ := s
  obtain ⟨hlen, htab, hrest, hk, fin, ⟨v, nd, v1, v2⟩, ⟨w, ne⟩, sd, se, par, ⟨q, gv, q1⟩, gs, glt, td, te, bd, de⟩ := H
  have hk : (⟨a, hs, calls⟩ : Conf α).get 0 = some ⟨.strong d g, false⟩ := hk
  have nd : a.b.sk.node d = some (.data v) := nd
  have ne : a.b.sk.node e = some (.data w) := ne
  have sd : a.b.strong d = 1 := sd
  have se : a.b.strong e = 1 := se
  have par : a.par e = some d := par
  have gv : a.guard g = some q := gv
  have gs : a.gS g = 1 := gs
  have glt : g < a.ng := glt
  have td : a.tgt (a.box d) = some g := td
  have te : ∀ x, a.tgt (a.box e) = some x → a.gS x = 0 := te
  have bd : a.box d < a.nbox := bd
  have hlen : tab.length = j := hlen
  have htab : tab[0]?.join = some (0, .plain) := htab
  have gng : g ≠ a.ng := by omega
  have ed : e ≠ d := fun h => de h.symm
  have hn : (⟨a, hs, calls⟩ : Conf α).node 0 = some d := by simp only [Conf.node, hk]
  let u0 : Call α := ⟨.cloneSide .L 0, .wait d g .L, [], some 0, some d, []⟩
  have e0 : (⟨a, hs, calls⟩ : Conf α).start (.cloneSide .L 0) = some ⟨a, hs, calls ++ [u0]⟩ := by
    simp only [Conf.start, hk, Conf.shared, hn]; rfl
  have gd0 : a.b.getData d = .ok v := by simp [Heap.getData, nd]
  have e1 : (⟨a, hs, calls ++ [u0]⟩ : Conf α).step calls.length = .ok ⟨a, hs, calls ++ [{ u0 with pc := .cs d .L }]⟩ := by
    rw [step_last (n := { pc := .cs d .L }) (a' := a) rfl (by simp [u0, pcStep, getG_of gv, q1, bind, Except.bind, pure, Except.pure])]
    simp [u0]
  have e2 : (⟨a, hs, calls ++ [{ u0 with pc := .cs d .L }]⟩ : Conf α).step calls.length = .ok ⟨a, hs, calls ++ [{ u0 with pc := .csInc e }]⟩ := by
    rw [step_last (n := { pc := .csInc e }) (a' := a) rfl (by simp [pcStep, gd0, v1, v2, bind, Except.bind, pure, Except.pure])]
    simp [u0]
  let a1 := a.withB { a.b with strong := upd a.b.strong e 2 }
  have e3 : (⟨a, hs, calls ++ [{ u0 with pc := .csInc e }]⟩ : Conf α).step calls.length = .ok ⟨a1, hs, calls ++ [{ u0 with pc := .gLoad e [] e }]⟩ := by
    rw [step_last (n := { pc := .gLoad e [] e }) (a' := a1) rfl (by simp [pcStep, Heap.incS, se, bind, Except.bind, pure, Except.pure, a1])]
    simp [u0]
  have gd1 : a1.b.getData e = .ok w := by simp [a1, Arena.withB, Heap.getData, ne]
  have e4 : (⟨a1, hs, calls ++ [{ u0 with pc := .gLoad e [] e }]⟩ : Conf α).step calls.length = .ok ⟨a1, hs, calls ++ [{ u0 with pc := .gTry e (a.box e) none [] e }]⟩ := by
    rw [step_last (n := { pc := .gTry e (a.box e) none [] e }) (a' := a1) rfl (by simp only [pcStep, gd1, bind, Except.bind, pure, Except.pure]; rfl)]
    simp [u0]
  have e5 : (⟨a1, hs, calls ++ [{ u0 with pc := .gTry e (a.box e) none [] e }]⟩ : Conf α).step calls.length = .ok ⟨a1, hs, calls ++ [{ u0 with pc := .gPar e (a.box e) [] e }]⟩ := by
    rw [step_last (n := { pc := .gPar e (a.box e) [] e }) (a' := a1) rfl (by
      simp only [pcStep]
      show (match a.tgt (a.box e) with | none => _ | some g => _) = _
      cases ht : a.tgt (a.box e) with
      | none => rfl
      | some g =>
        have : a1.gS g = 0 := te g ht
        simp [this])]
    simp [u0]
  let a2 := a1.withB { a1.b with strong := upd a1.b.strong d 2 }
  let fr : List GFrame := [⟨e, a.box e, d⟩]
  have e6 : (⟨a1, hs, calls ++ [{ u0 with pc := .gPar e (a.box e) [] e }]⟩ : Conf α).step calls.length = .ok ⟨a2, hs, calls ++ [{ u0 with pc := .gLoad d fr e }]⟩ := by
    rw [step_last (n := { pc := .gLoad d fr e }) (a' := a2) rfl (by
      have h1 : a1.par e = some d := par
      have h2 : a1.b.strong d = 1 := by simp [a1, Arena.withB, upd, de, sd]
      simp [pcStep, gd1, h1, h2, Heap.incS, bind, Except.bind, pure, Except.pure, a2, fr])]
    simp [u0]
  have gd2 : a2.b.getData d = .ok v := by simp [a2, a1, Arena.withB, Heap.getData, nd]
  have e7 : (⟨a2, hs, calls ++ [{ u0 with pc := .gLoad d fr e }]⟩ : Conf α).step calls.length = .ok ⟨a2, hs, calls ++ [{ u0 with pc := .gTry d (a.box d) none fr e }]⟩ := by
    rw [step_last (n := { pc := .gTry d (a.box d) none fr e }) (a' := a2) rfl (by simp only [pcStep, gd2, bind, Except.bind, pure, Except.pure]; rfl)]
    simp [u0]
  let a3 : Arena α := { a2 with gS := upd a2.gS g 2 }
  have e8 : (⟨a2, hs, calls ++ [{ u0 with pc := .gTry d (a.box d) none fr e }]⟩ : Conf α).step calls.length = .ok ⟨a3, hs, calls ++ [{ u0 with pc := .gRet g fr e }]⟩ := by
    rw [step_last (n := { pc := .gRet g fr e }) (a' := a3) rfl (by
      have h1 : a2.tgt (a.box d) = some g := td
      have h2 : a2.gS g = 1 := gs
      simp [pcStep, h1, h2, a3])]
    simp [u0]
  have e9 : (⟨a3, hs, calls ++ [{ u0 with pc := .gRet g fr e }]⟩ : Conf α).step calls.length =
      .ok ⟨a3, hs, calls ++ [{ u0 with pc := .gCas e (a.box e) (some g) [] e, tasks := [.base (.dropS d)] }]⟩ := by
    rw [step_last (n := { pc := .gCas e (a.box e) (some g) [] e, tasks := [.base (.dropS d)] }) (a' := a3) rfl (by simp [pcStep, fr])]
    simp [u0]
  let a4 := a3.withB { a3.b with strong := upd a3.b.strong d 1 }
  have e10 : (⟨a3, hs, calls ++ [{ u0 with pc := .gCas e (a.box e) (some g) [] e, tasks := [.base (.dropS d)] }]⟩ : Conf α).step calls.length =
      .ok ⟨a4, hs, calls ++ [{ u0 with pc := .gCas e (a.box e) (some g) [] e }]⟩ := by
    rw [step_last_task (t := .base (.dropS d)) (ts := []) (new := []) (a' := a4) rfl (by
      have : a3.b.strong d = 2 := by simp [a3, a2, Arena.withB, upd]
      simp [ataskStep, taskStep, dropStrong, this, bind, Except.bind, pure, Except.pure, a4])]
    rfl
  let a5 : Arena α := { a4 with
          ng := a4.ng + 1
          guard := upd a4.guard a4.ng (some ⟨some g, false, false⟩)
          gS := upd a4.gS a4.ng 1
          gW := upd a4.gW a4.ng 1
          gOf := upd a4.gOf a4.ng e }.newBox e (some a4.ng)
  have gd4 : a4.b.getData e = .ok w := by simp [a4, a3, a2, a1, Arena.withB, Heap.getData, ne]
  have e11 : (⟨a4, hs, calls ++ [{ u0 with pc := .gCas e (a.box e) (some g) [] e }]⟩ : Conf α).step calls.length = .ok ⟨a5, hs, calls ++ [{ u0 with pc := .gRet a.ng [] e }]⟩ := by
    rw [step_last (n := { pc := .gRet a.ng [] e }) (a' := a5) rfl (by
      have : a4.box e = a.box e := rfl
      simp only [pcStep, gd4, bind, Except.bind, pure, Except.pure, this, if_true]; rfl)]
    simp [u0]
  let u1 : Call α := { u0 with pc := .done .handle, out := [hs.length] }
  have e12 : (⟨a5, hs, calls ++ [{ u0 with pc := .gRet a.ng [] e }]⟩ : Conf α).step calls.length = .ok ⟨a5, hs ++ [some ⟨.strong e a.ng, false⟩], calls ++ [u1]⟩ := by
    rw [step_last (n := { pc := .done .handle, push := [⟨.strong e a.ng, false⟩] }) (a' := a5) rfl (by simp [pcStep])]
    simp [u0, u1]
  let c1 : Conf α := ⟨a5, hs ++ [some ⟨.strong e a.ng, false⟩], calls ++ [u1]⟩
  have ret1 : Ret (⟨a, hs, calls⟩ : Conf α) (.cloneSide .L 0) .handle [hs.length] c1 := by
    refine ⟨_, 12, u1, e0, ?_, ?_, rfl, rfl, rfl⟩
    · show steps _ calls.length 12 = _
      rw [steps_ok e1, steps_ok e2, steps_ok e3, steps_ok e4, steps_ok e5, steps_ok e6, steps_ok e7, steps_ok e8, steps_ok e9, steps_ok e10,
        steps_ok e11, steps_ok e12]
      rfl
    · show (calls ++ [u1])[calls.length]? = _
      simp
  -- drop
  have hk1 : c1.get hs.length = some ⟨.strong e a.ng, false⟩ := by simp [c1, Conf.get]
  have fin1 : ∀ cl ∈ c1.calls, cl.fin = true := by
    intro cl hcl
    rcases List.mem_append.1 hcl with h | h
    · exact fin cl h
    · rw [List.mem_singleton.1 h]; rfl
  have hb1 : c1.borrowed hs.length = false := by
    simp only [Conf.borrowed, List.any_eq_false]
    intro cl hcl
    simp [fin1 cl hcl]
  have hn1 : c1.node hs.length = some e := by simp only [Conf.node, hk1]
  let d0 : Call α := ⟨.drop hs.length, .done .unit, [.slice e a.ng], none, some e, []⟩
  let hs2 := hs ++ [none]
  have e13 : c1.start (.drop hs.length) = some ⟨a5, hs2, (calls ++ [u1]) ++ [d0]⟩ := by
    simp only [Conf.start, hk1, hb1, Conf.taking, hn1]
    simp [c1, hs2, d0]
  let a6 := a5.withB { a5.b with strong := upd a5.b.strong e 1 }
  have e14 : (⟨a5, hs2, (calls ++ [u1]) ++ [d0]⟩ : Conf α).step (calls ++ [u1]).length = .ok ⟨a6, hs2, (calls ++ [u1]) ++ [{ d0 with tasks := [.guard a.ng] }]⟩ := by
    rw [step_last_task (t := .slice e a.ng) (ts := []) (new := [.guard a.ng]) (a' := a6) rfl (by
      have : a5.b.strong e = 2 := by simp [a5, a4, a3, a2, a1, Arena.newBox, Arena.withB, upd, ed]
      simp [ataskStep, dropStrong, this, bind, Except.bind, pure, Except.pure, a6])]
    rfl
  let a7 : Arena α := { a6 with gS := upd a6.gS a.ng 0, guard := upd a6.guard a.ng none }
  have e15 : (⟨a6, hs2, (calls ++ [u1]) ++ [{ d0 with tasks := [.guard a.ng] }]⟩ : Conf α).step (calls ++ [u1]).length = .ok ⟨a7, hs2, (calls ++ [u1]) ++ [{ d0 with tasks := [.guard g] }]⟩ := by
    rw [step_last_task (t := .guard a.ng) (ts := []) (new := [.guard g]) (a' := a7) rfl (by
      have h1 : a6.gS a.ng = 1 := by simp [a6, a5, a4, a3, a2, a1, Arena.newBox, Arena.withB, upd]
      have h2 : a6.guard a.ng = some ⟨some g, false, false⟩ := by simp [a6, a5, a4, a3, a2, a1, Arena.newBox, Arena.withB, upd]
      simp [ataskStep, Arena.dropG, h1, h2, a7])]
    rfl
  let a8 : Arena α := { a7 with gS := upd a7.gS g 1 }
  let d1 : Call α := { d0 with tasks := [] }
  have e16 : (⟨a7, hs2, (calls ++ [u1]) ++ [{ d0 with tasks := [.guard g] }]⟩ : Conf α).step (calls ++ [u1]).length = .ok ⟨a8, hs2, (calls ++ [u1]) ++ [d1]⟩ := by
    rw [step_last_task (t := .guard g) (ts := []) (new := []) (a' := a8) rfl (by
      have h1 : a7.gS g = 2 := by simp [a7, a6, a5, a4, a3, a2, a1, Arena.newBox, Arena.withB, upd, gng]
      simp [ataskStep, Arena.dropG, h1, a8])]
    rfl
  let c2 : Conf α := ⟨a8, hs2, (calls ++ [u1]) ++ [d1]⟩
  have ret2 : Ret c1 (.drop hs.length) .unit [] c2 := by
    refine ⟨_, 3, d1, e13, ?_, ?_, rfl, rfl, rfl⟩
    · show steps _ (calls ++ [u1]).length 3 = _
      rw [steps_ok e14, steps_ok e15, steps_ok e16]
      rfl
    · show ((calls ++ [u1]) ++ [d1])[(calls ++ [u1]).length]? = _
      simp
  let s1 : Seq α := ⟨c1, tab ++ [some (hs.length, .plain)]⟩
  let s2 : Seq α := (s1.to c2).del j
  have at0 : (⟨⟨a, hs, calls⟩, tab⟩ : Seq α).at' 0 = some (.slice 0 d g) := by
    simp only [Seq.at', htab, hk]
  have tabj : s1.tab[j]?.join = some (hs.length, .plain) := by
    show (tab ++ [_])[j]?.join = _
    rw [← hlen]; simp
  have at1 : s1.at' j = some (.slice hs.length e a.ng) := by
    simp only [Seq.at', tabj]
    show (match c1.get hs.length with | _ => _) = _
    rw [hk1]
  have hj : j ≠ 0 := by
    intro h
    rw [h] at hlen
    rw [List.length_eq_zero_iff.1 hlen] at htab; cases htab
  refine ⟨s2, .cons (s1 := s1) (.cloneSide at0 ret1) (.cons (.drop (by rw [at1]; rfl) (by simp only [Seq.agrees, at1]) tabj ret2) (.nil _)), ?_, rfl⟩
  refine ⟨?_, ?_, ?_, ?_, ?_, ⟨v, nd, v1, v2⟩, ⟨w, ne⟩, ?_, ?_, par, ⟨q, ?_, q1⟩, ?_, ?_, ?_, ?_, ?_, de⟩
  · show ((tab ++ [_]).set j none).length = _
    simp [hlen]
  · show ((tab ++ [_]).set j none)[0]?.join = _
    rw [List.getElem?_set_ne hj, List.getElem?_append_left (by omega)]; exact htab
  · intro k hk
    show ((tab ++ [_]).set j none)[k]?.join = _
    rw [List.getElem?_set]
    split
    · split <;> rfl
    · next hjk =>
      rcases Nat.lt_trichotomy k tab.length with h | h | h
      · rw [List.getElem?_append_left h]; exact hrest k hk
      · exact absurd (hlen.symm.trans h.symm) hjk
      · rw [List.getElem?_eq_none (by simp; omega)]; rfl
  · have h0 : 0 < hs.length := Conf.get_lt hk
    show (hs ++ [none])[0]?.join = _
    rw [List.getElem?_append_left h0]; exact hk
  · intro cl hcl
    rcases List.mem_append.1 hcl with h | h
    · exact fin1 cl h
    · rw [List.mem_singleton.1 h]; rfl
  · show a8.b.strong d = 1
    simp [a8, a7, a6, a5, a4, a3, a2, a1, Arena.newBox, Arena.withB, upd, de]
  · show a8.b.strong e = 1
    simp [a8, a7, a6, a5, a4, a3, a2, a1, Arena.newBox, Arena.withB, upd]
  · show a8.guard g = some q
    simp [a8, a7, a6, a5, a4, a3, a2, a1, Arena.newBox, Arena.withB, upd, gng, gv]
  · show a8.gS g = 1
    simp [a8, upd]
  · show g < a.ng + 1
    omega
  · show upd a.tgt a.nbox (some a.ng) (upd a.box e a.nbox d) = some g
    rw [upd_ne _ _ de, upd_ne _ _ (by omega)]; exact td
  · intro x hx
    have hx : upd a.tgt a.nbox (some a.ng) (upd a.box e a.nbox e) = some x := hx
    rw [upd_same, upd_same] at hx; cases hx
    show a8.gS a.ng = 0
    have : a.ng ≠ g := fun h => gng h.symm
    simp [a8, a7, upd, this]
  · show upd a.box e a.nbox d < a.nbox + 1
    rw [upd_ne _ _ de]; omega

/-- What there is after some steps that do not fail. -/
def goOn (c : Conf α) (i n : Nat) : Conf α := match steps c i n with | .ok c' => c' | .error _ => c

/-- After `new` has been called. -/
def first0 : Conf Nat := (Conf.init false).plain (.new [1, 2]) (.new [1, 2])
def first1 : Conf Nat := goOn first0 0 6
/-- After `clone_left` has been called. -/
def first2 : Conf Nat := first1.shared (.cloneSide .L 0) 0 (.wait 1 0 .L)
def first3 : Conf Nat := goOn first2 1 13
/-- After the left half has been dropped. -/
def first4 : Conf Nat := first3.taking (.drop 1) 1 (.done .unit) [.slice 2 1]
def first5 : Conf Nat := goOn first4 2 3

theorem goOn_ok {c : Conf α} {i n : Nat} (h : (match steps c i n with | .ok _ => true | .error _ => false) = true) : steps c i n = .ok (goOn c i n) := by
  unfold goOn
  cases h' : steps c i n with
  | ok c' => rfl
  | error e => rw [h'] at h; cases h

theorem goOn_ret {c c1 : Conf α} {op : Op α} {n : Nat} {r : Res α} {out : List Nat} (h0 : c.start op = some c1)
    (h : (match steps c1 c.calls.length n with | .ok _ => true | .error _ => false) = true)
    (h2 : ∃ cl, (goOn c1 c.calls.length n).calls[c.calls.length]? = some cl ∧ cl.tasks = [] ∧ cl.pc = .done r ∧ cl.out = out) :
    Ret c op r out (goOn c1 c.calls.length n) := by
  obtain ⟨cl, h2, h3, h4, h5⟩ := h2
  exact ⟨c1, n, cl, h0, goOn_ok h, h2, h3, h4, h5⟩

/-- A test for how a call has returned. -/
def returned (c : Conf α) (i : Nat) (out : List Nat) (p : Res α → Bool) : Bool :=
  match c.calls[i]? with
  | some cl => cl.tasks.isEmpty && cl.out == out && (match cl.pc with | .done r => p r | _ => false)
  | none => false

theorem returned_handle {c : Conf α} {i : Nat} {out : List Nat} (h : returned c i out (fun r => match r with | .handle => true | _ => false) = true) :
    ∃ cl, c.calls[i]? = some cl ∧ cl.tasks = [] ∧ cl.pc = .done .handle ∧ cl.out = out := by
  unfold returned at h
  split at h
  · next cl hc =>
    simp only [Bool.and_eq_true, List.isEmpty_iff, beq_iff_eq] at h
    obtain ⟨⟨h1, h2⟩, h3⟩ := h
    refine ⟨cl, hc, h1, ?_, h2⟩
    split at h3
    · next r hr => rw [hr]; split at h3 <;> first | rfl | cases h3
    · cases h3
  · cases h

theorem returned_unit {c : Conf α} {i : Nat} {out : List Nat} (h : returned c i out (fun r => match r with | .unit => true | _ => false) = true) :
    ∃ cl, c.calls[i]? = some cl ∧ cl.tasks = [] ∧ cl.pc = .done .unit ∧ cl.out = out := by
  unfold returned at h
  split at h
  · next cl hc =>
    simp only [Bool.and_eq_true, List.isEmpty_iff, beq_iff_eq] at h
    obtain ⟨⟨h1, h2⟩, h3⟩ := h
    refine ⟨cl, hc, h1, ?_, h2⟩
    split at h3
    · next r hr => rw [hr]; split at h3 <;> first | rfl | cases h3
    · cases h3
  · cases h

theorem getE {c : Conf α} {k : Nat} {e : Ent} (h : decide (c.get k = some e) = true) : c.get k = some e := of_decide_eq_true h

theorem first_get : first1.get 0 = some ⟨.strong 1 0, false⟩ := by decide +kernel
theorem third_get : first3.get 1 = some ⟨.strong 2 1, false⟩ := by decide +kernel

theorem first_ret : Ret (Conf.init (α := Nat) false) (.new [1, 2]) .handle [0] first1 :=
  goOn_ret (c1 := first0) (n := 6) rfl (by decide +kernel) (returned_handle (by decide +kernel))

theorem second_ret : Ret first1 (.cloneSide .L 0) .handle [1] first3 := by
  have h1 : first1.calls.length = 1 := by decide +kernel
  have h2 : first1.start (.cloneSide .L 0) = some first2 := by simp only [Conf.start, first_get]; rfl
  have := goOn_ret (n := 13) (r := .handle) (out := [1]) h2 (by rw [h1]; decide +kernel) (by rw [h1]; exact returned_handle (by decide +kernel))
  rw [h1] at this; exact this

theorem third_ret : Ret first3 (.drop 1) .unit [] first5 := by
  have h1 : first3.calls.length = 2 := by decide +kernel
  have hb : first3.borrowed 1 = false := by decide +kernel
  have h2 : first3.start (.drop 1) = some first4 := by simp only [Conf.start, third_get, hb]; rfl
  have := goOn_ret (n := 3) (r := .unit) (out := []) h2 (by rw [h1]; decide +kernel) (by rw [h1]; exact returned_unit (by decide +kernel))
  rw [h1] at this; exact this

theorem halved_first : Halved ⟨first5, [some (0, .plain), none]⟩ 2 1 0 2 := by
  refine ⟨rfl, rfl, ?_, ?_, ?_, ?_, ?_, ?_, ?_, ?_, ?_, ?_, ?_, ?_, ?_, ?_, ?_⟩
  · intro k hk
    match k with
    | 0 => exact absurd rfl hk
    | 1 => rfl
    | k + 2 => rfl
  · show first5.get 0 = _; decide +kernel
  · have : first5.calls.all (fun cl => cl.fin) = true := by decide +kernel
    exact List.all_eq_true.1 this
  · have h : (match first5.a.b.sk.node 1 with | some (.data v) => sameNode v.len .L == false && v.kids .L == some 2 | _ => false) = true := by decide +kernel
    show ∃ v, first5.a.b.sk.node 1 = _ ∧ _
    split at h
    · next v hv => simp only [Bool.and_eq_true, beq_iff_eq] at h; exact ⟨v, hv, h⟩
    · cases h
  · have h : (match first5.a.b.sk.node 2 with | some (.data _) => true | _ => false) = true := by decide +kernel
    show ∃ v, first5.a.b.sk.node 2 = _
    split at h
    · next v hv => exact ⟨v, hv⟩
    · cases h
  · show first5.a.b.strong 1 = 1; decide +kernel
  · show first5.a.b.strong 2 = 1; decide +kernel
  · show first5.a.par 2 = some 1; decide +kernel
  · exact ⟨⟨none, false, false⟩, by show first5.a.guard 0 = _; decide +kernel, rfl⟩
  · show first5.a.gS 0 = 1; decide +kernel
  · show 0 < first5.a.ng; decide +kernel
  · show first5.a.tgt (first5.a.box 1) = some 0; decide +kernel
  · intro x hx
    have hx : first5.a.tgt (first5.a.box 2) = some x := hx
    have h : first5.a.tgt (first5.a.box 2) = some 1 := by decide +kernel
    rw [h] at hx; cases hx
    show first5.a.gS 1 = 0; decide +kernel
  · show first5.a.box 1 < first5.a.nbox; decide +kernel
  · decide

/-- The program `halvesOf` can be run, and makes a box for each half. -/
theorem halves_run {umax : Nat} (hu : 2 ≤ umax) (n : Nat) :
    ∃ os s, (Seq.init false).Run umax (halvesOf 1 2 (n + 1)) os s ∧ Halved s (n + 2) 1 0 2 ∧ s.c.a.nbox = n + 4 := by
  induction n with
  | zero =>
    let s1 : Seq Nat := ⟨first1, [some (0, .plain)]⟩
    let s2 : Seq Nat := ⟨first3, [some (0, .plain), some (1, .plain)]⟩
    have a1 : s1.at' 0 = some (.slice 0 1 0) := by simp [Seq.at', s1, first_get]
    have a2 : s2.at' 1 = some (.slice 1 2 1) := by simp [Seq.at', s2, third_get]
    refine ⟨[.handle, .handle, .done], ⟨first5, [some (0, .plain), none]⟩, ?_, halved_first, ?_⟩
    · exact .cons (s1 := s1) (.rcNew hu first_ret) (.cons (s1 := s2) (.cloneSide a1 second_ret)
        (.cons (.drop (by rw [a2]; rfl) (by simp only [Seq.agrees, a2]) rfl third_ret) (.nil _)))
    · show first5.a.nbox = 4; decide +kernel
  | succ n ih =>
    obtain ⟨os, s, h1, h2, h3⟩ := ih
    obtain ⟨s', h4, h5, h6⟩ := h2.round (umax := umax)
    refine ⟨os ++ [.handle, .done], s', ?_, h5, by omega⟩
    have e : halvesOf 1 2 (n + 1 + 1) = halvesOf 1 2 (n + 1) ++ [.cloneSide .L 0, .drop (n + 2)] := by
      simp [halvesOf, List.range_succ (n := n + 1)]
    rw [e]
    clear e h2 h3 h5 h6
    generalize halvesOf 1 2 (n + 1) = l at h1
    generalize Seq.init false = s0 at h1 ⊢
    induction h1 with
    | nil => exact h4
    | cons a _ ih => exact .cons a (ih h4)

end Verif.Arc
