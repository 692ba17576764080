import Verif.Arc.Counts
import Verif.Rc.Proofs.Counts
import Verif.Arc.Proofs.Weak2
import Verif.Arc.Proofs.Bounds
/-!
# How large reference counts get: proofs
-/

namespace Verif.Arc
open Verif.Spec (Side Slot Family Rng End)
open Verif.Rc
variable {α : Type}

theorem flat_sum {β : Type} {F : β → List Nat} {f : β → Nat} {x : Nat} : ∀ {T : List β}, (∀ t ∈ T, (F t).count x ≤ f t) → (T.flatMap F).count x ≤ (T.map f).sum
  | [], _ => by simp
  | t :: T, h => by
    have h1 := flat_sum (F := F) (f := f) (x := x) (T := T) fun u hu => h u (List.mem_cons_of_mem _ hu)
    have h2 := h t (List.mem_cons_self ..)
    rw [List.flatMap_cons, List.count_append, List.map_cons, List.sum_cons]; omega

theorem sum_split {β : Type} (p : β → Bool) (f : β → Nat) : ∀ T : List β, (T.map fun t => (if p t then 1 else 0) + f t).sum = T.countP p + (T.map f).sum
  | [] => rfl
  | t :: T => by
    have := sum_split p f T
    simp only [List.map_cons, List.sum_cons, List.countP_cons, this]; omega

theorem flat_le {β : Type} {F : β → List Nat} {x : Nat} {T : List β} (h : ∀ t ∈ T, (F t).count x ≤ 1) : (T.flatMap F).count x ≤ T.length := by
  have := flat_sum (f := fun _ => 1) h
  rw [List.map_const'] at this
  simpa using this

/-- No reference is counted twice along the callers of `guard`. -/
theorem Chain.count {a : Arena α} (Q : ParOK a) (z : Nat) : ∀ {fs : List GFrame} {x y : Nat}, Chain a x fs y →
    (y :: fs.map (·.p)).count z ≤ 1 ∧ (z ∈ y :: fs.map (·.p) → (a.b.sk.lab x).path.length ≤ (a.b.sk.lab z).path.length) := by
  intro fs
  induction fs with
  | nil =>
    rintro x y ⟨rfl, _⟩
    refine ⟨?_, fun h => ?_⟩
    · simp only [List.map_nil, List.count_cons, List.count_nil]; split <;> omega
    · have : z = x := by simpa using h
      rw [this]; exact Nat.le_refl _
  | cons f fs ih =>
    rintro x y ⟨rfl, h2, h3⟩
    obtain ⟨h4, h5⟩ := ih h3
    obtain ⟨_, _, _, s, h6⟩ := Q.par _ _ h2
    have h7 : (a.b.sk.lab f.x).path.length = (a.b.sk.lab f.p).path.length + 1 := by rw [h6]; simp [Lab.child]
    have e : (y :: (f :: fs).map (·.p)).count z = (y :: fs.map (·.p)).count z + if f.p = z then 1 else 0 := by
      simp only [List.map_cons, List.count_cons, beq_iff_eq]; omega
    refine ⟨?_, fun h => ?_⟩
    · rw [e]
      split
      · next hz =>
        have : z ∉ y :: fs.map (·.p) := fun hm => by
          have := h5 hm
          rw [← hz] at this; omega
        rw [List.count_eq_zero.2 this]; omega
      · exact h4
    · rw [List.map_cons] at h
      rcases List.mem_cons.1 h with h | h
      · have := h5 (List.mem_cons.2 (.inl h)); omega
      · rcases List.mem_cons.1 h with h | h
        · rw [h]; exact Nat.le_refl _
        · have := h5 (List.mem_cons_of_mem _ h); omega

theorem aS_frT (fs : List GFrame) : aS (frT fs) = fs.map (·.p) := by
  induction fs with
  | nil => rfl
  | cons f fs ih => simp only [frT, List.map_cons, aS_cons] at ih ⊢; rw [ih]; rfl

theorem count_reg (x : Nat) (r : Reg) : (AT.reg r).S.count x ≤ 1 := by
  simp only [AT.S, count_opt]; split <;> omega

theorem count_ref (x y : Nat) : (AT.ref y).S.count x ≤ 1 := by
  simp only [AT.S, List.count_cons, List.count_nil]; split <;> omega

theorem count_fg (x : Nat) (f : Fg) : (fgT f).S.count x ≤ 1 := by
  cases f with
  | kid c => exact count_ref x c
  | val r => exact count_reg x r

/-- What a program point holds of an object. -/
theorem pc_S {a : Arena α} {bh : Option Handle} (Q : ParOK a) (x : Nat) {pc : Pc α} (h : pcOK a bh pc) :
    (aS (pcT pc)).count x ≤ (if !pc.isDone then 1 else 0) + pc.todo := by
  have ch : ∀ {y z : Nat} {fs : List GFrame}, Chain a y fs z → (aS (.ref z :: frT fs)).count x ≤ 1 := fun {y z fs} hc => by
    rw [aS_cons, aS_frT]; exact (hc.count Q x).1
  have fg : ∀ (todo : List Fg), (aS (todo.map fgT)).count x ≤ todo.length := fun todo => by
    have := flat_le (T := todo.map fgT) (F := AT.S) (x := x) fun t ht => by
      obtain ⟨f, _, rfl⟩ := List.mem_map.1 ht
      exact count_fg x f
    rwa [List.length_map] at this
  have gd : ∀ (o : Option Nat), aS (o.toList.map AT.gd) = [] := fun o => by cases o <;> rfl
  have wk : ∀ (o : Option Nat), aS (o.toList.map AT.wk) = [] := fun o => by cases o <;> rfl
  have reg := count_reg x
  have ref := count_ref x
  cases pc with
  | gLoad y fs z => exact ch h
  | gTry y b pend fs z =>
    simp only [pcT, aS_append, gd, List.nil_append, Pc.isDone, Pc.todo]
    exact ch h
  | gPar y b fs z => exact ch h
  | gCas y b og fs z =>
    simp only [pcT, aS_append, gd, List.nil_append, Pc.isDone, Pc.todo]
    exact ch h
  | gRet g fs z =>
    obtain ⟨y, h⟩ := h
    have := ch h
    simp only [pcT, aS_cons, AT.S, List.nil_append, Pc.isDone, Pc.todo] at this ⊢
    exact this
  | imFg todo g r acc =>
    have h1 := fg todo
    have h2 := reg (bare r)
    simp only [pcT, aS_cons, aS_append, aS_own, List.nil_append, List.count_append, Pc.isDone, Pc.todo]
    have : (AT.gd g).S.count x = 0 := rfl
    simp only [Bool.not_false, if_true]; omega
  | imGate g r acc =>
    have h2 := reg (bare r)
    simp only [pcT, aS_cons, aS_own, List.count_append, List.count_nil, Pc.isDone, Pc.todo]
    have : (AT.gd g).S.count x = 0 := rfl
    simp only [Bool.not_false, if_true]; omega
  | imOk r acc =>
    have h2 := reg (bare r)
    simp only [pcT, aS_cons, aS_own, List.count_append, List.count_nil, Pc.isDone, Pc.todo]
    simp only [Bool.not_false, if_true]; omega
  | wd g => simp only [pcT, wk, List.count_nil]; omega
  | immut r => simpa [Pc.isDone, Pc.todo, pcT, aS] using reg r
  | split s r => simpa [Pc.isDone, Pc.todo, pcT, aS] using reg r
  | nxt s r => simpa [Pc.isDone, Pc.todo, pcT, aS] using reg r
  | cut s n r => simpa [Pc.isDone, Pc.todo, pcT, aS] using reg r
  | csCas d s r => simpa [Pc.isDone, Pc.todo, pcT, aS] using reg (bare r)
  | csLose d r => simpa [Pc.isDone, Pc.todo, pcT, aS] using reg (bare r)
  | cl2 d g => simpa [Pc.isDone, Pc.todo, pcT, aS] using ref d
  | gm0 d g => simpa [Pc.isDone, Pc.todo, pcT, aS, AT.S] using ref d
  | gm1 d g => simpa [Pc.isDone, Pc.todo, pcT, aS, AT.S] using ref d
  | gm2 d g => simpa [Pc.isDone, Pc.todo, pcT, aS, AT.S] using ref d
  | gm3 d g => simpa [Pc.isDone, Pc.todo, pcT, aS, AT.S] using ref d
  | gm4 d g => simpa [Pc.isDone, Pc.todo, pcT, aS, AT.S] using ref d
  | gmOpenC d g b => simpa [Pc.isDone, Pc.todo, pcT, aS, AT.S] using ref d
  | gmOpenD d g b => simpa [Pc.isDone, Pc.todo, pcT, aS, AT.S] using ref d
  | im0 d g => simpa [Pc.isDone, Pc.todo, pcT, aS, AT.S] using ref d
  | im1 d g => simpa [Pc.isDone, Pc.todo, pcT, aS, AT.S] using ref d
  | im2 d g => simpa [Pc.isDone, Pc.todo, pcT, aS, AT.S] using ref d
  | imOpen d g => simpa [Pc.isDone, Pc.todo, pcT, aS, AT.S] using ref d
  | _ => exact Nat.zero_le _

/-- What a pending drop holds of an object. -/
theorem atask_S (x : Nat) (t : ATask) : (aS (ataskT t)).count x ≤ 1 := by
  have reg := count_reg x
  have ref := count_ref x
  cases t with
  | base t =>
    cases t with
    | dropS y => simpa [ataskT, taskT, aS] using ref y
    | dropReg r => simpa [ataskT, taskT, aS] using reg r
    | dropRcSlice d i => simp [ataskT, taskT]
    | userCode => simp [ataskT, taskT]
  | slice d g => simpa [ataskT, aS, AT.S] using ref d
  | guard g => simp [ataskT, AT.S]

theorem opt_gd (o : Option Nat) (x : Nat) : (aGd (o.toList.map AT.gd)).count x ≤ 1 := by
  cases o with
  | none => simp
  | some y => simp only [Option.toList_some, List.map_cons, List.map_nil, aGd_cons, AT.gds, aGd_nil, List.append_nil, List.count_cons, List.count_nil]; split <;> omega

theorem opt_wk (o : Option Nat) (x : Nat) : (aWk (o.toList.map AT.wk)).count x ≤ 1 := by
  cases o with
  | none => simp
  | some y => simp only [Option.toList_some, List.map_cons, List.map_nil, aWk_cons, AT.wks, aWk_nil, List.append_nil, List.count_cons, List.count_nil]; split <;> omega

/-- What a program point holds of a guard. -/
theorem pc_G (x : Nat) (pc : Pc α) : (aGd (pcT pc)).count x ≤ if !pc.isDone then 1 else 0 := by
  have one : ∀ g, [g].count x ≤ 1 := fun g => by simp only [List.count_cons, List.count_nil]; split <;> omega
  have h2 : ∀ (g : Nat), (AT.gd g).gds = [g] := fun _ => rfl
  have h3 : ∀ (g : Nat), (AT.ref g).gds = [] := fun _ => rfl
  have h4 : ∀ (g : Reg), (AT.reg g).gds = [] := fun _ => rfl
  have h5 := fun o => opt_gd o x
  cases pc <;> simp only [pcT, aGd_cons, aGd_append, aGd_nil, aGd_frT, aGd_fgT, aGd_own, h2, h3, h4, List.append_nil, List.nil_append, Pc.isDone, Bool.not_false, Bool.not_true,
    if_true, List.count_nil, aGd_wk] <;> first | exact one _ | exact h5 _ | exact Nat.zero_le _

theorem atask_G (x : Nat) (t : ATask) : (aGd (ataskT t)).count x ≤ 1 := by
  have one : ∀ g, [g].count x ≤ 1 := fun g => by simp only [List.count_cons, List.count_nil]; split <;> omega
  cases t with
  | base t => cases t <;> simp [ataskT, taskT, AT.gds]
  | slice d g => exact one g
  | guard g => exact one g

/-- What a program point holds of `Weak`s of a guard. -/
theorem pc_W (x : Nat) (pc : Pc α) : (aWk (pcT pc)).count x ≤ if !pc.isDone then 1 else 0 := by
  have h2 : ∀ (g : Nat), (AT.gd g).wks = [] := fun _ => rfl
  have h3 : ∀ (g : Nat), (AT.ref g).wks = [] := fun _ => rfl
  have h4 : ∀ (g : Reg), (AT.reg g).wks = [] := fun _ => rfl
  have h5 := fun o => opt_wk o x
  cases pc <;> simp only [pcT, aWk_cons, aWk_append, aWk_nil, aWk_frT, aWk_fgT, aWk_own, h2, h3, h4, List.append_nil, Pc.isDone, Bool.not_false, Bool.not_true,
    if_true, List.count_nil, aWk_gd] <;> first | exact h5 _ | exact Nat.zero_le _

theorem atask_W (x : Nat) (t : ATask) : (aWk (ataskT t)).count x = 0 := by
  cases t with
  | base t => cases t <;> rfl
  | slice d g => rfl
  | guard g => rfl

/-- Handles and calls together. -/
theorem Conf.count_T {c : Conf α} {F : AT → List Nat} {q : Option Ent → Bool} {f : Call α → Nat} {x : Nat}
    (h1 : ∀ e, some e ∈ c.hs → ((entT e).flatMap F).count x ≤ if q (some e) then 1 else 0)
    (h2 : ∀ cl ∈ c.calls, ((callT cl).flatMap F).count x ≤ (if !cl.pc.isDone then 1 else 0) + f cl) :
    (c.T.flatMap F).count x ≤ c.hs.countP q + c.active + (c.calls.map f).sum := by
  have e1 : ((c.hs.flatMap slotT).flatMap F).count x ≤ c.hs.countP q := by
    rw [List.flatMap_assoc]
    refine count_flat fun o ho => ?_
    cases o with
    | none => simp [slotT]
    | some e => exact h1 e ho
  have e2 : ((c.calls.flatMap callT).flatMap F).count x ≤ c.active + (c.calls.map f).sum := by
    rw [List.flatMap_assoc, Conf.active, ← sum_split]
    exact flat_sum h2
  rw [Conf.T, List.flatMap_append, List.count_append]; omega

theorem call_S {c : Conf α} (B : c.BI) (x : Nat) {cl : Call α} (h : cl ∈ c.calls) :
    ((callT cl).flatMap AT.S).count x ≤ (if !cl.pc.isDone then 1 else 0) + (cl.tasks.length + cl.pc.todo) := by
  obtain ⟨i, hi⟩ := List.getElem?_of_mem h
  have h1 := pc_S B.par x (B.calls i cl hi).1
  have h2 := flat_le (T := cl.tasks) (F := fun t => aS (ataskT t)) (x := x) fun t _ => atask_S x t
  have e : (callT cl).flatMap AT.S = (cl.tasks.flatMap fun t => aS (ataskT t)) ++ aS (pcT cl.pc) := by
    simp only [callT, List.flatMap_append, List.flatMap_assoc]; rfl
  rw [e, List.count_append]; omega

theorem call_G (x : Nat) (cl : Call α) :
    ((callT cl).flatMap AT.gds).count x ≤ (if !cl.pc.isDone then 1 else 0) + (cl.tasks.length + cl.pc.todo) := by
  have h1 := pc_G x cl.pc
  have h2 := flat_le (T := cl.tasks) (F := fun t => aGd (ataskT t)) (x := x) fun t _ => atask_G x t
  have e : (callT cl).flatMap AT.gds = (cl.tasks.flatMap fun t => aGd (ataskT t)) ++ aGd (pcT cl.pc) := by
    simp only [callT, List.flatMap_append, List.flatMap_assoc]; rfl
  rw [e, List.count_append]; omega

theorem call_W (x : Nat) (cl : Call α) : ((callT cl).flatMap AT.wks).count x ≤ (if !cl.pc.isDone then 1 else 0) + 0 := by
  have h1 := pc_W x cl.pc
  have h2 := flat_sum (T := cl.tasks) (F := fun t => aWk (ataskT t)) (f := fun _ => 0) (x := x) fun t _ => Nat.le_of_eq (atask_W x t)
  have e : (callT cl).flatMap AT.wks = (cl.tasks.flatMap fun t => aWk (ataskT t)) ++ aWk (pcT cl.pc) := by
    simp only [callT, List.flatMap_append, List.flatMap_assoc]; rfl
  rw [List.map_const'] at h2
  have h3 : (List.replicate cl.tasks.length 0).sum = 0 := by simp
  rw [e, List.count_append]; omega

theorem zeros {β : Type} (l : List β) : (l.map fun _ => 0).sum = 0 := by induction l <;> simp_all

/-- What is counted is told apart by its keys. -/
theorem range_key {β : Type} [DecidableEq β] {n : Nat} {p : Nat → Bool} (key : Nat → β) (L : List β) (h1 : ∀ y, y < n → p y = true → key y ∈ L)
    (h2 : ∀ y z, y < n → z < n → p y = true → p z = true → key y = key z → y = z) : (List.range n).countP p ≤ L.length := by
  rw [List.countP_eq_length_filter, ← List.length_map (f := key)]
  have mem : ∀ {y}, y ∈ (List.range n).filter p → y < n ∧ p y = true := fun {y} hy => ⟨List.mem_range.1 (List.mem_filter.1 hy).1, (List.mem_filter.1 hy).2⟩
  refine subset_len ?_ fun b hb => ?_
  · refine List.pairwise_map.2 ((List.nodup_range.sublist List.filter_sublist).imp_of_mem fun {y z} hy hz hne he => hne ?_)
    exact h2 y z (mem hy).1 (mem hz).1 (mem hy).2 (mem hz).2 he
  · obtain ⟨y, hy, rfl⟩ := List.mem_map.1 hb
    exact h1 y (mem hy).1 (mem hy).2

/-! ## Only slice data has parents -/

def ParD (a : Arena α) : Prop := ∀ x p, a.par x = some p → a.b.sk.kind x = .data

theorem par_pc {a a' : Arena α} {pc : Pc α} {n : Next α} (hs : PStep a pc a' n) {x p : Nat} (h : a'.par x = some p) :
    a.par x = some p ∨ a'.b.sk.kind x = .data := by
  have root : ∀ {a0 : Arena α} {r : Reg} {d : Nat}, a0.root r = (a', d) → a0.par = a.par → a.par x = some p ∨ a'.b.sk.kind x = .data := by
    intro a0 r d e h1
    cases e
    have h : upd a0.par a0.b.sk.next none x = some p := h
    by_cases hx : x = a0.b.sk.next
    · rw [hx, upd_same] at h; cases h
    · rw [upd_ne _ _ hx, h1] at h; exact .inl h
  cases hs
  case new0 xs hl r d hr e => exact root e rfl
  case new1 xs hl r h1' al d eh hr e => exact root e rfl
  case immut r d e => exact root e rfl
  case csWin d s r v h1' c h2' hd hk e1 e2 =>
    cases e1
    obtain ⟨_, rfl⟩ := incS_some e2
    have h : upd a.par a.b.sk.next (some d) x = some p := h
    by_cases hx : x = a.b.sk.next
    · right
      subst hx
      show upd _ a.b.sk.next _ a.b.sk.next = _
      rw [upd_same]; rfl
    · rw [upd_ne _ _ hx] at h; exact .inl h
  all_goals exact .inl h

section
variable {P : Rules α} {zst : Bool} {c c' : Conf α}

theorem ParD.step {b : Bool} {i : Nat} (D : ParD c.a) (A : c.IA b) (e : c.step i = .ok c') : ParD c'.a := by
  obtain ⟨c3, e3, A', ge⟩ := A.step (i := i)
  rw [e] at e3; cases e3
  have B := A.bi
  have ev := ge.evo.evo
  have old : ∀ {x p}, c.a.par x = some p → c'.a.b.sk.kind x = .data := fun {x p} h => by
    rw [ev.kind x (B.par.par x p h).1]; exact D x p h
  intro x p hx
  cases CStep.of e with
  | none hi => exact D x p hx
  | task cl t ts a' new hi ht e1 =>
    have I : HInv c.a.b (ataskT t ++ (ts.flatMap ataskT ++ (pcT cl.pc ++ c.rest i))) := by
      refine (B.heap.perm (Conf.T_perm hi)).count fun t ht' => ?_
      simp only [callT, ht, List.flatMap_cons, List.append_assoc]
    have hp := (task_led I ((B.calls i cl hi).2 t (by simp [ht])) e1 0).2.1
    refine old (p := p) ?_
    rw [← hp]; exact hx
  | pc cl a' n hi ht e1 =>
    rcases par_pc (PStep.of e1) hx with h | h
    · exact old h
    · exact h

theorem Conf.PReach.ParD (hP : PTame P) (h : Conf.PReach P zst c) : ParD c.a := by
  induction h with
  | init => intro x p h; cases h
  | run h i e ih => exact ih.step (h.IA' hP) e
  | start h op hp e ih => rw [(Conf.start_T e).2]; exact ih
  | write h k en j x hk hw e ih =>
    rcases Conf.write_cases e with rfl | ⟨_, _, rfl⟩
    · exact ih
    · exact ih
  | panic h i e ih =>
    obtain ⟨cl, r, ts, ts', us, sl, p⟩ := Panicked.of (h.BI hP).heap e
    rw [p.eq]
    exact ih

/-- `Weak`s of slice data from within the heap. -/
theorem Conf.PReach.heapW_le (hP : PTame P) (h : Conf.PReach P zst c) (x : Nat) : heapW c.a x ≤ 3 := by
  have B := h.BI hP
  have D := h.ParD hP
  have S := B.heap.good.shape
  have form : ∀ {y}, ((c.a.b.sk.node y).map fun _ => (⟨c.a.par y, false, false⟩ : GuardV)).any (·.parent == some x) = true →
      c.a.par y = some x ∧ ∃ v, c.a.b.sk.node y = some (.data v) := fun {y} hy => by
    cases hn : c.a.b.sk.node y with
    | none => rw [hn] at hy; simp at hy
    | some n =>
      rw [hn] at hy
      have h1 : c.a.par y = some x := by simpa using hy
      have h2 := S.kinds _ _ hn
      rw [D y x h1] at h2
      cases n with
      | data v => exact ⟨h1, v, rfl⟩
      | _ => cases h2
  have key := range_key (n := c.a.b.sk.next) (p := fun y => ((c.a.b.sk.node y).map fun _ => (⟨c.a.par y, false, false⟩ : GuardV)).any (·.parent == some x))
    c.a.b.sk.lab [(c.a.b.sk.lab x).child .L, (c.a.b.sk.lab x).child .R] (fun y _ hy => by
      obtain ⟨_, _, _, s, h2⟩ := B.par.par y x (form hy).1
      cases s <;> simp [h2]) fun y z _ _ hy hz he => by
      obtain ⟨_, v, hv⟩ := form hy
      obtain ⟨_, w, hw⟩ := form hz
      exact S.dataUniq y v z w hv hw he
  rw [heapW, hpW]
  have key : prefs (fun z => (c.a.b.sk.node z).map fun _ => (⟨c.a.par z, false, false⟩ : GuardV)) c.a.b.sk.next x ≤ 2 := key
  split <;> omega

/-- References to a guard from the guards of the halves. -/
theorem Conf.PReach.prefs_le (hP : PTame P) (h : Conf.PReach P zst c) (g : Nat) : prefs c.a.guard c.a.ng g ≤ 2 := by
  have B := h.BI hP
  have G := (h.IA' hP).gf.gf
  have form : ∀ {y}, (c.a.guard y).any (·.parent == some g) = true → ∃ v, c.a.guard y = some v ∧ v.parent = some g := fun {y} hy => by
    cases hn : c.a.guard y with
    | none => rw [hn] at hy; simp at hy
    | some v => rw [hn] at hy; exact ⟨v, rfl, by simpa using hy⟩
  refine range_key (fun y => c.a.b.sk.lab (c.a.gOf y)) [(c.a.b.sk.lab (c.a.gOf g)).child .L, (c.a.b.sk.lab (c.a.gOf g)).child .R] (fun y _ hy => ?_)
    fun y z hy1 hz1 hy hz he => ?_
  · obtain ⟨v, h1, h2⟩ := form hy
    obtain ⟨_, _, _, s, h3⟩ := B.par.par _ _ (G.link1 y v g h1 h2).2
    cases s <;> simp [h3]
  · obtain ⟨v, h1, _⟩ := form hy
    obtain ⟨w, h2, _⟩ := form hz
    have a1 := G.gof y hy1
    have a2 := G.gof z hz1
    exact h.GU hP y z v w h1 h2 ((h.DI hP).hist.uniq _ _ a1.1 a2.1 a1.2 a2.2 he)

end
end Verif.Arc
