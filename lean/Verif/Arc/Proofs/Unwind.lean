import Verif.Arc.Unwind
import Verif.Arc.Proofs.Live
import Verif.Rc.Proofs.Unwind
/-!
# Panics in `ArcSlice`
-/

namespace Verif.Arc
open Verif.Spec (Side Slot Family Rng End)
open Verif.Rc
variable {α : Type}

section
variable {h : Heap α} {T : List AT}

theorem HInv.lose {r : Reg} (I : HInv h (.reg r :: T)) : HInv (h.lose r) (.reg (bare r) :: T) ∧ Lost h (h.lose r) := by
  generalize hn : r.len = n
  induction n generalizing h r with
  | zero =>
    rw [lose_zero hn]
    obtain ⟨b, o, l, a⟩ := r
    cases hn
    exact ⟨I, .refl h⟩
  | succ n ih =>
    rw [lose_succ (by omega)]
    have I' := I.takeItem (r' := { r with len := r.len - 1 }) (i := r.off + r.len - 1) (s := .moved) rfl (by omega) (by omega) rfl rfl (Nat.sub_le _ _) (by
      intro b j
      simp only [Reg.span, Span.num]
      grind)
    obtain ⟨i1, i2⟩ := ih I' (by simp only; omega)
    refine ⟨i1, .trans (b := h.setSlot r.buf (r.off + r.len - 1) .moved) ⟨rfl, fun b j => ?_⟩ i2⟩
    obtain ⟨a, ha⟩ := I.reg_live (List.mem_cons_self ..) (i := r.off + r.len - 1) (by omega) (by omega)
    rw [setSlot_slot]; split
    · next e => obtain ⟨rfl, rfl⟩ := e; exact .inr ⟨⟨a, ha⟩, rfl⟩
    · exact .inl rfl

/-- What unwinding does to a pending drop. -/
def UW (t t' : ATask) : Prop := t' = t ∨ ∃ r, t = .base (.dropReg r) ∧ t' = .base (.dropReg { r with len := 0 })

structure UWs (ts ts' : List ATask) : Prop where
  mem : ∀ t' ∈ ts', ∃ t ∈ ts, UW t t'
  S : aS (ts'.flatMap ataskT) = aS (ts.flatMap ataskT)
  gds : aGd (ts'.flatMap ataskT) = aGd (ts.flatMap ataskT)
  wks : aWk (ts'.flatMap ataskT) = aWk (ts.flatMap ataskT)
  cost : (ts'.map tcost).sum ≤ (ts.map tcost).sum

theorem unwind_inv {ts : List ATask} (I : HInv h (ts.flatMap ataskT ++ T)) :
    HInv (unwind h ts).1 ((unwind h ts).2.flatMap ataskT ++ T) ∧ Lost h (unwind h ts).1 ∧ UWs ts (unwind h ts).2 ∧
      ∃ s, (unwind h ts).1 = { h with slot := s } := by
  induction ts generalizing h T with
  | nil => exact ⟨I, .refl _, ⟨by simp [unwind], rfl, rfl, rfl, Nat.le_refl _⟩, h.slot, rfl⟩
  | cons t ts ih =>
    have move : ∀ {h : Heap α} {t : ATask} {ts T}, HInv h ((t :: ts).flatMap ataskT ++ T) → HInv h (ts.flatMap ataskT ++ (ataskT t ++ T)) := by
      intro h t ts T I
      refine I.perm ?_
      rw [List.flatMap_cons, ← List.append_assoc]
      exact List.perm_append_comm.append_right T
    have back : ∀ {h : Heap α} {t : ATask} {ts T}, HInv h (ts.flatMap ataskT ++ (ataskT t ++ T)) → HInv h ((t :: ts).flatMap ataskT ++ T) := by
      intro h t ts T I
      refine I.perm ?_
      rw [List.flatMap_cons, ← List.append_assoc]
      exact List.perm_append_comm.append_right T
    have other : unwind h (t :: ts) = ((unwind h ts).1, t :: (unwind h ts).2) →
        HInv (unwind h (t :: ts)).1 ((unwind h (t :: ts)).2.flatMap ataskT ++ T) ∧ Lost h (unwind h (t :: ts)).1 ∧ UWs (t :: ts) (unwind h (t :: ts)).2 ∧
          ∃ s, (unwind h (t :: ts)).1 = { h with slot := s } := by
      intro e
      obtain ⟨i1, i2, i3, i4⟩ := ih (move I)
      rw [e]
      refine ⟨back i1, i2, ⟨fun t' ht' => ?_, ?_, ?_, ?_, ?_⟩, i4⟩
      · rcases List.mem_cons.1 ht' with rfl | ht'
        · exact ⟨_, List.mem_cons_self .., .inl rfl⟩
        · obtain ⟨t0, h1, h2⟩ := i3.mem t' ht'
          exact ⟨t0, List.mem_cons_of_mem _ h1, h2⟩
      · simp only [List.flatMap_cons, aS_append, i3.S]
      · simp only [List.flatMap_cons, aGd_append, i3.gds]
      · simp only [List.flatMap_cons, aWk_append, i3.wks]
      · simp only [List.map_cons, List.sum_cons]; have := i3.cost; omega
    cases t with
    | slice d g => exact other rfl
    | guard g => exact other rfl
    | base t =>
      cases t with
      | dropS x => exact other rfl
      | dropRcSlice d i => exact other rfl
      | userCode => exact other rfl
      | dropReg r =>
        have I1 : HInv h (.reg r :: (ts.flatMap ataskT ++ T)) := I
        obtain ⟨j1, j2⟩ := I1.lose
        have j1 : HInv (h.lose r) ((.base (.dropReg (bare r)) :: ts).flatMap ataskT ++ T) := j1
        obtain ⟨i1, i2, i3, s, i4⟩ := ih (move j1)
        refine ⟨back i1, j2.trans i2, ⟨fun t' ht' => ?_, ?_, ?_, ?_, ?_⟩, s, by rw [show (unwind h (.base (.dropReg r) :: ts)).1 = (unwind (h.lose r) ts).1 from rfl, i4]; rfl⟩
        · rcases List.mem_cons.1 ht' with rfl | ht'
          · exact ⟨_, List.mem_cons_self .., .inr ⟨r, rfl, rfl⟩⟩
          · obtain ⟨t0, h1, h2⟩ := i3.mem t' ht'
            exact ⟨t0, List.mem_cons_of_mem _ h1, h2⟩
        · show aS (_ ++ (unwind (h.lose r) ts).2.flatMap ataskT) = aS (_ ++ ts.flatMap ataskT)
          rw [aS_append, aS_append, i3.S]; rfl
        · show aGd (_ ++ (unwind (h.lose r) ts).2.flatMap ataskT) = aGd (_ ++ ts.flatMap ataskT)
          rw [aGd_append, aGd_append, i3.gds]; rfl
        · show aWk (_ ++ (unwind (h.lose r) ts).2.flatMap ataskT) = aWk (_ ++ ts.flatMap ataskT)
          rw [aWk_append, aWk_append, i3.wks]; rfl
        · show ((ATask.base (.dropReg { r with len := 0 }) :: (unwind (h.lose r) ts).2).map tcost).sum ≤ ((ATask.base (.dropReg r) :: ts).map tcost).sum
          simp only [List.map_cons, List.sum_cons, tcost, Task.cost]; have := i3.cost; omega

end

theorem cleanup_cases {pc : Pc α} {us : List ATask} (e : cleanup pc = some us) : (∃ r, pc = .done r ∧ us = []) ∨
    ∃ x b og fs y, pc = .gCas x b og fs y ∧ us = og.toList.map .guard ++ (fs.map fun f => .base (.dropS f.p)) ++ [.base (.dropS y)] := by
  cases pc with
  | done r => cases e; exact .inl ⟨r, rfl, rfl⟩
  | gCas x b og fs y => cases e; exact .inr ⟨x, b, og, fs, y, rfl, rfl⟩
  | _ => cases e

theorem cleanup_T {pc : Pc α} {us : List ATask} (e : cleanup pc = some us) : (us.flatMap ataskT).Perm (pcT pc) := by
  cases pc with
  | done r => cases e; exact .refl _
  | gCas x b og fs y =>
    cases e
    have h1 : ∀ l : List Nat, (l.map ATask.guard).flatMap ataskT = l.map .gd := by
      intro l; induction l <;> simp_all [ataskT]
    have h2 : ∀ l : List GFrame, (l.map fun f => ATask.base (.dropS f.p)).flatMap ataskT = frT l := by
      intro l; induction l <;> simp_all [ataskT, taskT, frT]
    simp only [List.flatMap_append, h1, h2, List.append_assoc, pcT]
    refine List.Perm.append_left _ ?_
    show (frT fs ++ [AT.ref y]).Perm _
    exact List.perm_append_comm
  | _ => cases e

section
variable {c c' : Conf α} {i : Nat}

/-- A panic, in full. -/
structure Panicked (c c' : Conf α) (i : Nat) (cl : Call α) (r : Reg) (ts ts' us : List ATask) (s : Nat → Nat → Slot α) : Prop where
  call : c.calls[i]? = some cl
  tasks : cl.tasks = .base .userCode :: .base (.dropReg r) :: ts
  clean : cleanup cl.pc = some us
  eq : c' = { c with
        a := c.a.withB { c.a.b with slot := s }
        calls := c.calls.set i { cl with pc := .done .panic, tasks := .base (.dropReg r) :: (ts' ++ us) } }
  uw : UWs ts ts'
  heap : HInv { c.a.b with slot := s } c'.T
  lost : Lost c.a.b { c.a.b with slot := s }
  S : (aS c'.T).Perm (aS c.T)
  gds : (aGd c'.T).Perm (aGd c.T)
  wks : (aWk c'.T).Perm (aWk c.T)

theorem Panicked.of (B : HInv c.a.b c.T) (e : c.panic i = some c') : ∃ cl r ts ts' us s, Panicked c c' i cl r ts ts' us s := by
  simp only [Conf.panic] at e
  split at e
  · next cl hi =>
    split at e
    · next r ts us ht hu =>
      have I : HInv c.a.b (ts.flatMap ataskT ++ (.reg r :: (pcT cl.pc ++ c.rest i))) := by
        refine (B.perm (Conf.T_perm hi)).perm ?_
        simp only [callT, ht, List.flatMap_cons, ataskT, taskT, List.nil_append, List.append_assoc, List.cons_append]
        exact List.perm_middle.symm
      obtain ⟨i1, i2, i3, s, i4⟩ := unwind_inv I
      have hT : c'.T.Perm ((unwind c.a.b ts).2.flatMap ataskT ++ (.reg r :: (pcT cl.pc ++ c.rest i))) := by
        cases e
        have := cleanup_T hu
        generalize hq : pcT cl.pc = q at this ⊢
        simp only [Conf.T, Conf.rest, set_split hi, List.flatMap_append, List.flatMap_cons, callT, ataskT, taskT, pcT, List.append_nil]
        simp only [List.perm_iff_count, List.count_append, List.count_cons, List.count_nil] at this ⊢
        intro t; have := this t; omega
      have hc := Conf.T_perm hi
      refine ⟨cl, r, ts, (unwind c.a.b ts).2, us, s, hi, ht, hu, ?_, i3, ?_, by rw [← i4]; exact i2, ?_, ?_, ?_⟩
      · cases e; rw [i4]
      · rw [← i4]; exact i1.perm hT.symm
      · refine (aS_perm hT).trans (.trans ?_ (aS_perm hc).symm)
        simp only [callT, ht, List.flatMap_cons, aS_append, i3.S, aS_cons, ataskT, taskT, aS_nil, List.nil_append, List.append_assoc]
        simp only [List.perm_iff_count, List.count_append]; intro t; omega
      · refine (aGd_perm hT).trans (.trans ?_ (aGd_perm hc).symm)
        simp only [callT, ht, List.flatMap_cons, aGd_append, i3.gds, aGd_cons, ataskT, taskT, aGd_nil, List.nil_append, List.append_assoc]
        simp only [List.perm_iff_count, List.count_append]; intro t; omega
      · refine (aWk_perm hT).trans (.trans ?_ (aWk_perm hc).symm)
        simp only [callT, ht, List.flatMap_cons, aWk_append, i3.wks, aWk_cons, ataskT, taskT, aWk_nil, List.nil_append, List.append_assoc]
        simp only [List.perm_iff_count, List.count_append]; intro t; omega
    · cases e
  · cases e

section
variable {cl : Call α} {r : Reg} {ts ts' us : List ATask} {s : Nat → Nat → Slot α}

theorem Panicked.calls (p : Panicked c c' i cl r ts ts' us s) {j : Nat} {clj : Call α} (hj : c'.calls[j]? = some clj) :
    (j = i ∧ clj = { cl with pc := .done .panic, tasks := .base (.dropReg r) :: (ts' ++ us) }) ∨ (j ≠ i ∧ c.calls[j]? = some clj) := by
  have hlen := (List.getElem?_eq_some_iff.1 p.call).1
  have hj : (c.calls.set i { cl with pc := .done .panic, tasks := .base (.dropReg r) :: (ts' ++ us) })[j]? = some clj := by
    rw [p.eq] at hj; exact hj
  by_cases hij : j = i
  · subst hij
    rw [List.getElem?_set_self hlen] at hj
    exact .inl ⟨rfl, (Option.some.inj hj).symm⟩
  · rw [List.getElem?_set_ne (fun e => hij e.symm)] at hj
    exact .inr ⟨hij, hj⟩

theorem Panicked.refs (p : Panicked c c' i cl r ts ts' us s) (I : HInv c.a.b c.T) {x : Nat} (hk : c.a.b.sk.kind x = .data) (hx : .ref x ∈ c'.T) :
    .ref x ∈ c.T :=
  I.ref_of hk (p.S.mem_iff.1 (ref_mem_aS hx))

theorem Panicked.fin (p : Panicked c c' i cl r ts ts' us s) : cl.fin = false := by simp [Call.fin, p.tasks]

theorem Panicked.bh (p : Panicked c c' i cl r ts ts' us s) (clj : Call α) : clj.bh c' = clj.bh c := by rw [p.eq]; rfl

theorem Panicked.get (p : Panicked c c' i cl r ts ts' us s) (k : Nat) : c'.get k = c.get k := by rw [p.eq]; rfl

theorem Panicked.aplain (p : Panicked c c' i cl r ts ts' us s) (h : ∀ t ∈ cl.tasks, aplain t) :
    ∀ t ∈ ATask.base (.dropReg r) :: (ts' ++ us), Arc.aplain t := by
  intro t ht
  rcases List.mem_cons.1 ht with rfl | ht
  · trivial
  · rcases List.mem_append.1 ht with ht | ht
    · obtain ⟨t0, h1, h2⟩ := p.uw.mem t ht
      have := h t0 (by rw [p.tasks]; simp [h1])
      rcases h2 with rfl | ⟨r, rfl, rfl⟩
      · exact this
      · trivial
    · have hu := p.clean
      cases hp : cl.pc <;> rw [hp] at hu <;> cases hu
      · cases ht
      · rcases List.mem_append.1 ht with ht | ht
        · rcases List.mem_append.1 ht with ht | ht
          · obtain ⟨_, _, rfl⟩ := List.mem_map.1 ht; trivial
          · obtain ⟨_, _, rfl⟩ := List.mem_map.1 ht; trivial
        · cases List.mem_singleton.1 ht; trivial

theorem Panicked.latch (p : Panicked c c' i cl r ts ts' us s) (f : Pc α → List Nat) (hf : ∀ r, f (.done r) = [])
    (hg : ∀ x b og fs y, f (.gCas x b og fs y) = []) : (c'.calls.flatMap fun cl => f cl.pc) = c.calls.flatMap fun cl => f cl.pc := by
  rw [p.eq]
  simp only [set_split p.call]
  conv => rhs; rw [list_split p.call]
  simp only [List.flatMap_append, List.flatMap_cons, hf]
  have : f cl.pc = [] := by
    have hu := p.clean
    cases hp : cl.pc <;> rw [hp] at hu <;> cases hu
    · exact hf _
    · exact hg ..
  rw [this]

theorem Conf.BI.panic (B : c.BI) (p : Panicked c c' i cl r ts ts' us s) : c'.BI := by
  refine ⟨?_, ?_, ?_, fun k e hk => ?_, fun j clj hj => ?_⟩
  · have := p.heap; rw [p.eq] at this ⊢; exact this
  · refine Arc.GI.congr B.gi (by rw [p.eq]; rfl) (by rw [p.eq]; rfl) (by rw [p.eq]; rfl) (by rw [p.eq]; rfl) (fun g => p.gds.count_eq g)
      (fun g => p.wks.count_eq g) (fun g => by rw [p.latch cL (fun _ => rfl) (fun _ _ _ _ _ => rfl)])
      (fun g => by rw [p.latch dL (fun _ => rfl) (fun _ _ _ _ _ => rfl)])
  · rw [p.eq]; exact ⟨B.par.par, B.par.kid, B.par.root⟩
  · rw [p.get] at hk
    have := B.ents k e hk
    rw [p.eq]
    cases hh : e.h <;> simp only [hh, entOK] at this ⊢ <;> exact this
  · rw [p.bh]
    rcases p.calls hj with ⟨rfl, rfl⟩ | ⟨_, hj⟩
    · exact ⟨trivial, p.aplain (B.calls _ cl p.call).2⟩
    · obtain ⟨h1, h2⟩ := B.calls j clj hj
      refine ⟨?_, h2⟩
      rw [p.eq]
      exact h1.congr rfl rfl

theorem Panicked.gevo (p : Panicked c c' i cl r ts ts' us s) (B : Base c.a.b.sk) : GEvo c.a c'.a := by
  rw [p.eq]
  exact ⟨⟨.of_eq B rfl, fun _ _ => rfl⟩, Nat.le_refl _, Nat.le_refl _, fun _ _ => rfl, fun _ _ => rfl, fun _ _ h => h⟩

theorem Conf.GFI.panic (F : c.GFI) (B : c.BI) (p : Panicked c c' i cl r ts ts' us s) : c'.GFI := by
  have ge := p.gevo B.heap.base
  refine ⟨?_, fun k e hk => ?_, fun j clj hj => ?_⟩
  · rw [p.eq]; exact ⟨F.gf.box, F.gf.lt, F.gf.gof, F.gf.uniq, F.gf.link1, F.gf.link2⟩
  · rw [p.get] at hk
    exact (F.ents k e hk).mono ge
  · rcases p.calls hj with ⟨rfl, rfl⟩ | ⟨_, hj⟩
    · refine ⟨trivial, fun t ht => ?_⟩
      rcases List.mem_cons.1 ht with rfl | ht
      · trivial
      · rcases List.mem_append.1 ht with ht | ht
        · obtain ⟨t0, h1, h2⟩ := p.uw.mem t ht
          rcases h2 with rfl | ⟨r, rfl, rfl⟩
          · exact ((F.calls _ cl p.call).2 t (by rw [p.tasks]; simp [h1])).mono ge
          · trivial
        · have hu := p.clean
          cases hp : cl.pc <;> rw [hp] at hu <;> cases hu
          · cases ht
          · rcases List.mem_append.1 ht with ht | ht
            · rcases List.mem_append.1 ht with ht | ht
              · obtain ⟨_, _, rfl⟩ := List.mem_map.1 ht; trivial
              · obtain ⟨_, _, rfl⟩ := List.mem_map.1 ht; trivial
            · cases List.mem_singleton.1 ht; trivial
    · obtain ⟨h4, h5⟩ := F.calls j clj hj
      exact ⟨h4.mono ge B.par (B.calls j clj hj).1, fun t ht => (h5 t ht).mono ge⟩

theorem Conf.CovI.panic (C : c.CovI) (F : c.GFI) (B : c.BI) (B' : c'.BI) (p : Panicked c c' i cl r ts ts' us s) : c'.CovI := by
  have Bk := B.heap.base
  have Bk' := B'.heap.base
  have ge := p.gevo Bk
  have hl : ∀ {j : Nat} {cl : Call α}, c.calls[j]? = some cl → ∀ x, .ref x ∈ callT cl → x < c.a.b.sk.next :=
    fun hj x hx => B.heap.lt (mem_aS (Conf.call_tok hj hx) (by simp))
  intro j clj hj
  rw [p.bh]
  rcases p.calls hj with ⟨rfl, rfl⟩ | ⟨_, hj⟩
  · refine ⟨trivial, fun t ht => ?_⟩
    obtain ⟨hc, hct⟩ := C _ cl p.call
    obtain ⟨hp, _⟩ := B.calls _ cl p.call
    obtain ⟨hg, _⟩ := F.calls _ cl p.call
    have key : ∀ t', taskC c.a (cl.bh c) cl.upOn (.done .panic) t' → (∀ x, .ref x ∈ ataskT t' → x < c.a.b.sk.next) →
        taskC c'.a (cl.bh c) cl.upOn (.done .panic) t' := fun t' h1 h2 => h1.mono ge Bk Bk' h2
    have above : ∀ {x0 b og fs y x}, cl.pc = .gCas x0 b og fs y → (c.a.b.sk.lab x).up (c.a.b.sk.lab y) → aboveC c.a (cl.bh c) cl.upOn x := by
      intro x0 b og fs y x hpc hx
      rw [hpc] at hc hp
      have h1 : Chain c.a x0 fs y := hp
      have h2 : cl.upOn = some y ∨ yC c.a (cl.bh c) y := hc
      exact h2.imp (fun h2 => ⟨y, h2, h1.endp.2, hx⟩) fun h2 => ⟨y, h1.endp.2, h1.endp.1, hx, h2⟩
    rcases List.mem_cons.1 ht with rfl | ht
    · trivial
    · rcases List.mem_append.1 ht with ht | ht
      · obtain ⟨t0, h1, h2⟩ := p.uw.mem t ht
        rcases h2 with rfl | ⟨r, rfl, rfl⟩
        · have hm : t ∈ cl.tasks := by rw [p.tasks]; simp [h1]
          refine key t ?_ fun x hx => hl p.call x (List.mem_append_left _ (List.mem_flatMap.2 ⟨t, hm, hx⟩))
          have h3 := hct t hm
          cases t with
          | base t =>
            cases t with
            | dropS x =>
              intro hk
              rcases h3 hk with h4 | ⟨g, h4, h5⟩ | h4
              · exact .inl h4
              · refine .inr (.inr ?_)
                rcases cleanup_cases p.clean with ⟨r, hpc, rfl⟩ | ⟨x0, b, og, fs, y, hpc, rfl⟩
                · rw [hpc] at h4; cases h4
                · refine above hpc ?_
                  rw [hpc] at hg hp h4
                  have hch : Chain c.a x0 fs y := hp
                  have hog : ogG c.a x0 og := hg.2.2.1
                  cases og with
                  | none => simp [pcT, frT] at h4
                  | some g' =>
                    have : g = g' := by simpa [pcT, frT] using h4
                    subst this
                    obtain ⟨_, h6⟩ := hog
                    rw [h5.2] at h6
                    obtain ⟨_, _, _, s0, h7⟩ := B.par.par _ _ h6
                    exact Lab.up_trans (by rw [h7]; exact Lab.up_child _ _) (hch.up B.par).1
              · exact .inr (.inr h4)
            | _ => trivial
          | _ => trivial
        · trivial
      · rcases cleanup_cases p.clean with ⟨r, hpc, rfl⟩ | ⟨x0, b, og, fs, y, hpc, rfl⟩
        · cases ht
        · have hch : Chain c.a x0 fs y := by rw [hpc] at hp; exact hp
          rcases List.mem_append.1 ht with ht | ht
          · rcases List.mem_append.1 ht with ht | ht
            · obtain ⟨_, _, rfl⟩ := List.mem_map.1 ht; trivial
            · obtain ⟨f, hf, rfl⟩ := List.mem_map.1 ht
              refine key _ (fun _ => .inr (.inr (above hpc ((hch.up B.par).2 f hf)))) fun x hx => ?_
              have : x = f.p := by simpa [ataskT, taskT] using hx
              subst this
              refine hl p.call _ (List.mem_append_right _ ?_)
              rw [hpc]
              refine List.mem_append_right _ (List.mem_cons_of_mem _ (List.mem_map.2 ⟨f, hf, rfl⟩))
          · cases List.mem_singleton.1 ht
            refine key _ (fun _ => .inr (.inr (above hpc (Lab.up_refl _)))) fun x hx => ?_
            have : x = y := by simpa [ataskT, taskT] using hx
            subst this
            exact hch.endp.2
  · obtain ⟨h3, h4⟩ := C j clj hj
    exact ⟨h3.mono ge.evo Bk Bk' (B.calls j clj hj).1 fun x hx => hl hj x (List.mem_append_right _ hx),
      fun t ht => (h4 t ht).mono ge Bk Bk' fun x hx => hl hj x (List.mem_append_left _ (List.mem_flatMap.2 ⟨t, ht, hx⟩))⟩

theorem Conf.Clear.panic {b : Bool} (L : c.Clear b) (p : Panicked c c' i cl r ts ts' us s) : c'.Clear b := by
  have old : ∀ {j : Nat} {clj : Call α}, c'.calls[j]? = some clj →
      ∃ cl, c.calls[j]? = some cl ∧ clj.op = cl.op ∧ (clj.fin = false → cl.fin = false) ∧ clj.on = cl.on := by
    intro j clj hj
    rcases p.calls hj with ⟨rfl, rfl⟩ | ⟨_, hj⟩
    · exact ⟨cl, p.call, rfl, fun _ => p.fin, rfl⟩
    · exact ⟨clj, hj, rfl, id, rfl⟩
  have up : ∀ {cl clj : Call α} {u}, clj.op = cl.op → clj.on = cl.on → clj.upOn = some u → cl.upOn = some u := by
    intro cl clj u h1 h2 h3
    rw [Call.upOn_some] at h3 ⊢
    rw [← h1, ← h2]; exact h3
  have e : c'.a.b.sk = c.a.b.sk := by rw [p.eq]; rfl
  refine ⟨fun j clj hj => ?_, fun j clj d hj hd => ?_, fun i1 cl1 u j1 clj1 d hi1 hf1 hu hj1 hfj hd hup => ?_,
    fun i1 cl1 u k d g hi1 hf1 hu hb hk => ?_⟩
  · rcases p.calls hj with ⟨rfl, rfl⟩ | ⟨_, hj⟩
    · trivial
    · have := L.ops j clj hj
      simp only [opOK] at this ⊢
      rw [e]; exact this
  · obtain ⟨cl, h1, _, _, h2⟩ := old hj
    rw [e]
    exact L.lt j cl d h1 (by rw [← h2]; exact hd)
  · obtain ⟨cl, h1, h2, h3, h7⟩ := old hi1
    obtain ⟨clj, h4, h5, h6, h8⟩ := old hj1
    rw [e] at hup ⊢
    rw [h5]
    exact L.calls i1 cl u j1 clj d h1 (h3 hf1) (up h2 h7 hu) h4 (h6 hfj) (by rw [← h8]; exact hd) hup
  · obtain ⟨cl, h1, h2, h3, h7⟩ := old hi1
    rw [p.get] at hk
    rw [e]
    exact L.ents i1 cl u k d g h1 (h3 hf1) (up h2 h7 hu) hb hk

theorem Panicked.noDesc (p : Panicked c c' i cl r ts ts' us s) (B : c.BI) {d : Nat} (h : NoDesc c.a c.T d) : NoDesc c'.a c'.T d := by
  intro x hx hk hu
  have e : c'.a.b.sk = c.a.b.sk := by rw [p.eq]; rfl
  rw [e] at hk hu ⊢
  exact h x (p.refs B.heap hk hx) hk hu

theorem Panicked.excl (p : Panicked c c' i cl r ts ts' us s) (B : c.BI) {d : Nat} (h : Excl c.a c.T d) : Excl c'.a c'.T d := by
  have e : c'.a.b.sk = c.a.b.sk := by rw [p.eq]; rfl
  exact ⟨by rw [e]; exact h.kind, by rw [p.S.count_eq]; exact h.tok, by rw [e]; exact h.link, p.noDesc B h.desc⟩

theorem Conf.PH.panic {b : Bool} (H : c.PH b) (B : c.BI) (p : Panicked c c' i cl r ts ts' us s) : c'.PH b := by
  refine ⟨fun j clj d g hj hp => ?_, fun j clj d hj hd => ?_, fun hbt k d g hk => ?_, fun j clj k hj hb => ?_⟩
  · rcases p.calls hj with ⟨rfl, rfl⟩ | ⟨_, hj⟩
    · rcases hp with ⟨_, hp⟩ | hp <;> cases hp
    · obtain ⟨h1, h2⟩ := H.mid j clj d g hj hp
      refine ⟨p.noDesc B h1, fun j2 cl2 g' hj2 hb hpa => ?_⟩
      rw [p.bh] at hb
      rcases p.calls hj2 with ⟨rfl, rfl⟩ | ⟨_, hj2⟩
      · exact hpa
      · exact h2 j2 cl2 g' hj2 hb hpa
  · rcases p.calls hj with ⟨rfl, rfl⟩ | ⟨_, hj⟩
    · cases hd
    · exact p.excl B (H.win j clj d hj hd)
  · rw [p.get] at hk
    exact p.excl B (H.ent hbt k d g hk)
  · have hh : c'.hs = c.hs := by rw [p.eq]
    rw [hh]
    simp only [p.get]
    rcases p.calls hj with ⟨rfl, rfl⟩ | ⟨_, hj⟩
    · exact H.bor _ cl k p.call hb
    · exact H.bor j clj k hj hb

end

theorem Conf.IA.panic {b : Bool} (A : c.IA b) (e : c.panic i = some c') : c'.IA b := by
  obtain ⟨cl, r, ts, ts', us, s, p⟩ := Panicked.of A.bi.heap e
  have B' := A.bi.panic p
  exact ⟨B', A.gf.panic A.bi p, A.cov.panic A.gf A.bi B' p, A.clear.panic p, A.ph.panic A.bi p⟩

variable {P : Rules α} {zst : Bool}

theorem Conf.PReach.all {b : Bool} (hP : ∀ c op, Conf.PReach P zst c → P c op → c.ok b op) (h : Conf.PReach P zst c) : c.IA b := by
  induction h with
  | init => exact ⟨.init zst, .init zst, .init zst, .init b zst, .init b zst⟩
  | run _ i e ih =>
    obtain ⟨c2, e2, h2, _⟩ := ih.step (i := i)
    rw [e] at e2; cases e2; exact h2
  | start h op hp e ih => exact ih.start e (hP _ op h hp)
  | write _ k en j x hk _ e ih => exact ih.write hk e
  | panic _ i e ih => exact ih.panic e

theorem Conf.PReach.IA (hP : PStrict P) (h : Conf.PReach P zst c) : c.IA true := h.all fun c op => hP zst c op

theorem Conf.PReach.IA' (hP : PTame P) (h : Conf.PReach P zst c) : c.IA false := h.all fun c op => hP zst c op

theorem Conf.PReach.BI (hP : PTame P) (h : Conf.PReach P zst c) : c.BI := (h.IA' hP).bi

theorem PStrict.tame (h : PStrict P) : PTame P := by
  intro zst c op hc hp
  have := h zst c op hc hp
  cases op with
  | upgrade k =>
    simp only [Conf.strict, Conf.careful] at this ⊢
    cases hk : c.node k <;> simp_all
  | _ => simp_all [Conf.strict, Conf.careful]

/-- Runs without panics are runs. -/
theorem Conf.Reach.preach (h : Conf.Reach P zst c) : Conf.PReach P zst c := by
  induction h with
  | init => exact .init
  | run _ i e ih => exact .run ih i e
  | start _ op hp e ih => exact .start ih op hp e
  | write _ k en j x hk hw e ih => exact .write ih k en j x hk hw e

theorem ptame_careful : PTame (fun (c : Conf α) op => c.careful op = true) := fun _ _ _ _ h => h

theorem pstrict_strict : PStrict (fun (c : Conf α) op => c.strict op = true) := fun _ _ _ _ h => h

theorem panic_calls (h : c.panic i = some c') {j : Nat} {clj : Call α} (hj : c'.calls[j]? = some clj) :
    ∃ cl, c.calls[j]? = some cl ∧ clj.op = cl.op := by
  simp only [Conf.panic] at h
  split at h
  · next cl hi =>
    split at h
    · cases h
      by_cases hij : j = i
      · subst hij
        have hlen := (List.getElem?_eq_some_iff.1 hi).1
        simp only [List.getElem?_set_self hlen] at hj
        cases hj
        exact ⟨cl, hi, rfl⟩
      · simp only [List.getElem?_set_ne (fun e => hij e.symm)] at hj
        exact ⟨clj, hj, rfl⟩
    · cases h
  · cases h

theorem Conf.PReach.ops {Q : Op α → Prop} (h : Conf.PReach (only Q) zst c) : ∀ (i : Nat) cl, c.calls[i]? = some cl → Q cl.op := by
  induction h with
  | init => intro i cl hi; simp [Conf.init] at hi
  | run _ i e ih =>
    intro j clj hj
    obtain ⟨cl, h1, h2, _⟩ := step_calls e hj
    rw [h2]; exact ih j cl h1
  | start _ op hp e ih =>
    intro j clj hj
    rcases start_call (.of e) hj with h | ⟨_, h2, _, _⟩
    · exact ih j clj h
    · rw [h2]; exact hp
  | write _ k en j x hk _ e ih =>
    rcases Conf.write_cases e with rfl | ⟨b, i, rfl⟩
    · exact ih
    · exact ih
  | panic _ i e ih =>
    intro j clj hj
    obtain ⟨cl, h1, h2⟩ := panic_calls e hj
    rw [h2]; exact ih j cl h1

theorem pstrict_noUpgrade {Q : Op α → Prop} (hQ : ∀ op, Q op → op.NoUpgrade) : PStrict (only Q) := by
  intro zst c op hc hp
  have hu : ∀ q, c.busy Op.isUpgrade q = false := fun q => busy_of fun i cl hi _ => by
    have := hQ _ (hc.ops i cl hi)
    cases ho : cl.op <;> simp_all [Op.isUpgrade, Op.NoUpgrade]
  have := hQ op hp
  cases op <;> simp_all [Conf.strict, Op.NoUpgrade]

theorem ptame_noIntoMut {Q : Op α → Prop} (hQ : ∀ op, Q op → op.NoIntoMut) : PTame (only Q) := by
  intro zst c op hc hp
  have hu : ∀ q, c.busy Op.isIntoMut q = false := fun q => busy_of fun i cl hi _ => by
    have := hQ _ (hc.ops i cl hi)
    cases ho : cl.op <;> simp_all [Op.isIntoMut, Op.NoIntoMut]
  have := hQ op hp
  cases op <;> simp_all [Conf.careful, Op.NoIntoMut]

end
end Verif.Arc
