import Verif.Arc.Proofs.Unwind
/-!
# Where item destructors run
-/

namespace Verif.Arc
open Verif.Spec (Side Slot Family Rng End)
open Verif.Rc
variable {α : Type}

/-- At most one item destructor is running, and when it returns the next item of the range is dropped. -/
def userOK (ts : List ATask) : Prop :=
  .base .userCode ∉ ts ∨ ∃ r ts', ts = .base .userCode :: .base (.dropReg r) :: ts' ∧ .base .userCode ∉ ts'

/-- A drop that drops no items. -/
def itemless (k : Skel) : ATask → Prop
  | .guard _ => True
  | .base (.dropReg r) => r.len = 0
  | .base (.dropS x) => k.kind x = .alloc
  | _ => False

def valsOK : Pc α → Prop
  | .imFg todo _ _ _ => ∀ w, .val w ∈ todo → w.len = 0
  | _ => True

def Conf.UI (c : Conf α) : Prop := ∀ (i : Nat) cl, c.calls[i]? = some cl → userOK cl.tasks ∧ valsOK cl.pc ∧
  (cleanup cl.pc = none → ∀ t ∈ cl.tasks, itemless c.a.b.sk t)

section
variable {a a' : Arena α}

theorem dropStrong_tasks {h h' : Heap α} {x : Nat} {ts : List Task} (e : dropStrong h x = .ok (h', ts)) : .userCode ∉ ts := by
  simp only [dropStrong] at e
  split at e
  · cases e
  · split at e
    · cases e; simp
    · split at e
      · cases e
      · cases e; simp
      · obtain ⟨_, _, e⟩ := bind_ok e
        obtain ⟨_, _, e⟩ := bind_ok e
        cases pure_ok e; simp
      · obtain ⟨_, _, e⟩ := bind_ok e
        obtain ⟨_, _, e⟩ := bind_ok e
        obtain ⟨_, _, e⟩ := bind_ok e
        cases pure_ok e; simp
      · split at e
        · cases e; simp
        · split at e
          · cases e; simp
          · cases e

theorem decW_slot {h h' : Heap α} {o : Option Nat} (e : h.decW o = .ok h') : h'.slot = h.slot := by
  cases o with
  | none => cases e; rfl
  | some x =>
    simp only [Heap.decW] at e
    repeat' split at e
    all_goals first | (cases e; done) | (cases e; rfl)

theorem dropStrong_slot {h h' : Heap α} {x : Nat} {ts : List Task} (e : dropStrong h x = .ok (h', ts)) : h'.slot = h.slot := by
  simp only [dropStrong] at e
  split at e
  · cases e
  · split at e
    · cases e; rfl
    · split at e
      · cases e
      · cases e; rfl
      · obtain ⟨_, e1, e⟩ := bind_ok e
        obtain ⟨_, e2, e⟩ := bind_ok e
        cases pure_ok e; rw [decW_slot e2, decW_slot e1]; rfl
      · obtain ⟨_, e1, e⟩ := bind_ok e
        obtain ⟨_, e2, e⟩ := bind_ok e
        obtain ⟨_, e3, e⟩ := bind_ok e
        cases pure_ok e; rw [decW_slot e3, decW_slot e2, decW_slot e1]; rfl
      · split at e
        · cases e; rfl
        · split at e
          · cases e; rfl
          · cases e

/-- Where an item is dropped, its destructor runs next. -/
theorem taskStep_drops {t : ATask} {new : List ATask} (e : ataskStep a t = .ok (a', new)) :
    a'.b.slot = a.b.slot ∨ .base .userCode ∈ new := by
  cases t with
  | base t =>
    obtain ⟨⟨h', ts'⟩, e1, e2⟩ := bind_ok e
    cases pure_ok e2
    cases t with
    | dropS x => exact .inl (dropStrong_slot (show dropStrong a.b x = .ok (h', ts') from e1))
    | dropRcSlice d i =>
      obtain ⟨⟨h2, ts2⟩, e3, e4⟩ := bind_ok (show (dropStrong a.b d >>= fun p => pure (p.1, p.2 ++ [.dropS i])) = .ok (h', ts') from e1)
      cases pure_ok e4
      exact .inl (dropStrong_slot e3)
    | userCode => cases e1; exact .inl rfl
    | dropReg r =>
      simp only [taskStep] at e1
      split at e1
      · cases e1; exact .inl rfl
      · split at e1
        · cases e1
        · split at e1
          · cases e1; exact .inr (by simp)
          · cases e1
  | slice d g =>
    obtain ⟨⟨h', ts'⟩, e1, e2⟩ := bind_ok e
    cases pure_ok e2
    exact .inl (dropStrong_slot e1)
  | guard g =>
    refine .inl ?_
    simp only [ataskStep, Arena.dropG] at e
    repeat' split at e
    all_goals first | (cases e; done) | (cases e; rfl) | skip

theorem taskStep_user {t : ATask} {new : List ATask} (e : ataskStep a t = .ok (a', new)) :
    .base .userCode ∉ new ∨ t ≠ .base .userCode ∧ ∃ r, new = [.base .userCode, .base (.dropReg r)] := by
  cases t with
  | base t =>
    obtain ⟨⟨h', ts'⟩, e1, e2⟩ := bind_ok e
    cases pure_ok e2
    cases t with
    | dropS x =>
      have := dropStrong_tasks (show dropStrong a.b x = .ok (h', ts') from e1)
      exact .inl (by simpa using this)
    | dropRcSlice d i =>
      obtain ⟨⟨h2, ts2⟩, e3, e4⟩ := bind_ok (show (dropStrong a.b d >>= fun p => pure (p.1, p.2 ++ [.dropS i])) = .ok (h', ts') from e1)
      cases pure_ok e4
      have := dropStrong_tasks e3
      exact .inl (by simpa using this)
    | userCode => cases e1; exact .inl (by simp)
    | dropReg r =>
      simp only [taskStep] at e1
      split at e1
      · cases e1; exact .inl (by simp)
      · split at e1
        · cases e1
        · split at e1
          · cases e1; exact .inr ⟨by simp, _, rfl⟩
          · cases e1
  | slice d g =>
    obtain ⟨⟨h', ts'⟩, e1, e2⟩ := bind_ok e
    cases pure_ok e2
    have := dropStrong_tasks e1
    exact .inl (by simpa using this)
  | guard g =>
    simp only [ataskStep, Arena.dropG] at e
    split at e
    · cases e
    · split at e
      · cases e; exact .inl (by simp)
      · split at e <;> cases e
        exact .inl (by simp)

theorem userOK_step {t : ATask} {new ts : List ATask} (e : ataskStep a t = .ok (a', new)) (h : userOK (t :: ts)) : userOK (new ++ ts) := by
  rcases h with h | ⟨r, ts', h1, h2⟩
  · have hts : .base .userCode ∉ ts := fun hm => h (List.mem_cons_of_mem _ hm)
    rcases taskStep_user e with h3 | ⟨_, r, rfl⟩
    · exact .inl (by simp [h3, hts])
    · exact .inr ⟨r, ts, rfl, hts⟩
  · cases h1
    rcases taskStep_user e with h3 | ⟨h3, _⟩
    · exact .inl (by simp [h3, h2])
    · exact absurd rfl h3

theorem itemless_step {t : ATask} {new : List ATask} {T : List AT} (I : HInv a.b (ataskT t ++ T)) (B' : Base a'.b.sk) (ev : AEvo a a') (h : itemless a.b.sk t)
    (e : ataskStep a t = .ok (a', new)) : ∀ t' ∈ new, itemless a'.b.sk t' := by
  cases t with
  | base t =>
    obtain ⟨⟨h', ts'⟩, e1, e2⟩ := bind_ok e
    cases pure_ok e2
    cases t with
    | dropS x =>
      have h : a.b.sk.kind x = .alloc := h
      have e1 : dropStrong a.b x = .ok (h', ts') := e1
      have hnil : ts' = [] := by
        simp only [dropStrong] at e1
        split at e1
        · cases e1
        · split at e1
          · cases e1; rfl
          · split at e1
            · cases e1
            · next hv => have := I.base.kinds _ _ hv; rw [h] at this; cases this
            · next hv => have := I.base.kinds _ _ hv; rw [h] at this; cases this
            · next hv => have := I.base.kinds _ _ hv; rw [h] at this; cases this
            · split at e1
              · cases e1; rfl
              · split at e1
                · cases e1; rfl
                · cases e1
      subst hnil
      simp
    | dropRcSlice d i => exact h.elim
    | userCode => exact h.elim
    | dropReg r =>
      have h : r.len = 0 := h
      simp only [taskStep, h, if_true] at e1
      cases e1
      intro t' ht'
      obtain ⟨t0, h1, rfl⟩ := List.mem_map.1 ht'
      obtain ⟨al, h1, rfl⟩ := List.mem_map.1 h1
      have hr := (I.regs r (by simp [ataskT, taskT])).1 al (by simpa using h1)
      exact I.base.kinds _ _ hr
  | slice d g => exact h.elim
  | guard g =>
    simp only [ataskStep, Arena.dropG] at e
    split at e
    · cases e
    · split at e
      · cases e; simp
      · split at e <;> cases e
        intro t' ht'
        obtain ⟨_, _, rfl⟩ := List.mem_map.1 ht'
        trivial

theorem itemless.mono {t : ATask} (ev : AEvo a a') (hl : ∀ x, .ref x ∈ ataskT t → x < a.b.sk.next) (h : itemless a.b.sk t) : itemless a'.b.sk t := by
  cases t with
  | base t =>
    cases t with
    | dropS x =>
      show a'.b.sk.kind x = .alloc
      rw [ev.evo.kind x (hl x (by simp [ataskT, taskT]))]; exact h
    | _ => exact h
  | _ => exact h

theorem vals_kids (v : DataV) {w : Reg} (h : .val w ∈ kidsFg v) : False := by
  simp [kidsFg] at h

theorem quiet_pc {pc : Pc α} {n : Next α} (hv : valsOK pc) (e : PStep a pc a' n)
    (hf : ∀ c0 todo g r acc, pc = .imFg (.kid c0 :: todo) g r acc → a.b.strong c0 = 1) :
    userOK n.tasks ∧ valsOK n.pc ∧ (cleanup n.pc = none → ∀ t ∈ n.tasks, itemless a'.b.sk t) := by
  have g1 : ∀ l : List Nat, userOK (l.map .guard) := fun l => .inl (by simp)
  have g2 : ∀ (l : List Nat), ∀ t ∈ l.map ATask.guard, itemless a'.b.sk t := by
    intro l t ht; obtain ⟨_, _, rfl⟩ := List.mem_map.1 ht; trivial
  cases e with
  | gTryNo x b pend fs y h => exact ⟨g1 _, trivial, fun _ => g2 _⟩
  | gTryOk x b pend fs y g hb hg => exact ⟨g1 _, trivial, fun _ t ht => by obtain ⟨_, _, rfl⟩ := List.mem_map.1 ht; trivial⟩
  | csLose c r h e => exact ⟨.inl (by simp), trivial, fun _ t ht => by cases List.mem_singleton.1 ht; rfl⟩
  | nxt en r h o r' ts re hre e =>
    refine ⟨.inl ?_, trivial, fun h => by cases h⟩
    simp only [iterNext] at e
    split at e
    · cases e; simp
    · split at e
      · cases e
      · split at e
        · split at e <;> split at e <;> cases e <;> simp
        · cases e
  | gRet1 g f fs y => exact ⟨.inl (by simp), trivial, fun h => by cases h⟩
  | im2 d g v hd hc => exact ⟨.inl (by simp), fun w hw => (vals_kids v hw).elim, by simp⟩
  | imKid c todo g r acc v hd hc =>
    refine ⟨.inl (by simp), fun w hw => ?_, by simp⟩
    rcases List.mem_append.1 hw with hw | hw
    · exact (vals_kids v hw).elim
    · rcases List.mem_cons.1 hw with hw | hw
      · cases hw; rfl
      · exact hv w (List.mem_cons_of_mem _ hw)
  | imKidNo c todo g r acc v hd hc => exact absurd (hf c todo g r acc rfl) hc
  | imVal w todo g r acc =>
    exact ⟨.inl (by simp), fun w' hw' => hv w' (List.mem_cons_of_mem _ hw'), fun _ t ht => by
      cases List.mem_singleton.1 ht; exact hv w (List.mem_cons_self ..)⟩
  | imGate g r acc v hv => exact ⟨.inl (by simp), trivial, fun _ t ht => by cases List.mem_singleton.1 ht; trivial⟩
  | _ => exact ⟨.inl (by simp), trivial, by simp⟩

end

section
variable {c c' : Conf α} {i : Nat}

theorem Conf.UI.step (U : c.UI) (A : c.BI) (B' : c'.BI) (ev : AEvo c.a c'.a) (hf : c.FgSafe i) (h : c.step i = .ok c') : c'.UI := by
  have hl : ∀ {j : Nat} {cl : Call α}, c.calls[j]? = some cl → ∀ t ∈ cl.tasks, ∀ x, .ref x ∈ ataskT t → x < c.a.b.sk.next :=
    fun hj t ht x hx => A.heap.lt (mem_aS (Conf.call_tok hj (List.mem_append_left _ (List.mem_flatMap.2 ⟨t, ht, hx⟩))) (by simp))
  have old : ∀ {j : Nat} {clj : Call α}, c.calls[j]? = some clj → userOK clj.tasks ∧ valsOK clj.pc ∧
      (cleanup clj.pc = none → ∀ t ∈ clj.tasks, itemless c'.a.b.sk t) := by
    intro j clj hj
    obtain ⟨h1, h2, h3⟩ := U j clj hj
    exact ⟨h1, h2, fun h4 t ht => (h3 h4 t ht).mono ev (hl hj t ht)⟩
  intro j clj hj
  cases CStep.of h with
  | none h => exact U j clj hj
  | task cl t ts a' new hi ht e =>
    rcases after_calls hi hj with ⟨rfl, rfl⟩ | ⟨_, hj⟩
    · obtain ⟨h1, h2, h3⟩ := U j cl hi
      rw [ht] at h1
      refine ⟨userOK_step e h1, h2, fun h4 t' ht' => ?_⟩
      rcases List.mem_append.1 ht' with ht' | ht'
      · have I : HInv c.a.b (ataskT t ++ (ts.flatMap ataskT ++ pcT cl.pc ++ c.rest j)) := by
          have := A.heap.perm (Conf.T_perm hi)
          simpa [callT, ht, List.append_assoc] using this
        exact itemless_step I B'.heap.base ev (h3 h4 t (by simp [ht])) e t' ht'
      · exact (old hi).2.2 h4 t' (by simp [ht, ht'])
    · exact old hj
  | pc cl a' n hi ht e =>
    rcases after_calls hi hj with ⟨rfl, rfl⟩ | ⟨_, hj⟩
    · exact quiet_pc (U j cl hi).2.1 (.of e) fun c0 todo g r acc hp => hf cl c0 todo g r acc hi ht hp
    · exact old hj

theorem Conf.UI.start {op : Op α} (U : c.UI) (h : c.start op = some c') : c'.UI := by
  have ea := (Conf.start_T h).2
  have hs := SStep.of h
  intro j cl hj
  rw [ea]
  rcases start_call hs hj with h | ⟨_, _, _, h⟩
  · exact U j cl h
  · rcases h with ⟨_, hp, ht, _⟩ | ⟨_, hp, ht, _⟩ | ⟨k, d, g, hk, _, _, ht, hp⟩ | ⟨k, d, g, b, hk, _, _, ht, hp⟩ |
      ⟨k, d, g, hk, _, _, _, hp⟩ | ⟨k, d, g, b, hk, _, _, _, _, hp, ht⟩ | ⟨k, r, b, hk, _, _, _, hp⟩
    · rw [hp, ht]; exact ⟨.inl (by simp), trivial, by simp⟩
    · rw [hp, ht]; exact ⟨.inl (by simp), trivial, by simp⟩
    · rw [ht]
      rcases hp with ⟨_, hp⟩ | ⟨s, _, hp⟩ | ⟨_, hp⟩ <;> rw [hp] <;> exact ⟨.inl (by simp), trivial, by simp⟩
    · rw [ht]
      rcases hp with ⟨_, hp⟩ | ⟨_, hp⟩ <;> rw [hp] <;> exact ⟨.inl (by simp), trivial, by simp⟩
    · rcases hp with ⟨_, hp, ht⟩ | ⟨_, hp, ht⟩ | ⟨_, hp, ht⟩ <;> rw [hp, ht]
      · exact ⟨.inl (by simp), trivial, by simp⟩
      · exact ⟨.inl (by simp), trivial, by simp⟩
      · exact ⟨.inl (by simp), trivial, fun h => by cases h⟩
    · rw [hp, ht]; exact ⟨.inl (by simp), trivial, by simp⟩
    · rcases hp with ⟨_, hp, ht⟩ | ⟨_, _, hp, ht⟩ | ⟨_, _, hp, ht⟩ | ⟨_, _, _, hp, ht⟩ | ⟨_, hp, ht⟩ <;> rw [hp, ht] <;>
        exact ⟨.inl (by simp), trivial, fun h => by first | (cases h; done) | simp⟩

theorem Conf.UI.panic (U : c.UI) (A : HInv c.a.b c.T) (e : c.panic i = some c') : c'.UI := by
  obtain ⟨cl, r, ts, ts', us, s, p⟩ := Panicked.of A e
  have esk : c'.a.b.sk = c.a.b.sk := by rw [p.eq]; rfl
  intro j clj hj
  rw [esk]
  rcases p.calls hj with ⟨rfl, rfl⟩ | ⟨_, hj⟩
  · refine ⟨.inl ?_, trivial, fun h => by cases h⟩
    have h0 : .base .userCode ∉ ts := by
      rcases (U j cl p.call).1 with h | ⟨r', ts2, h1, h2⟩
      · exact absurd (by rw [p.tasks]; simp) h
      · rw [p.tasks] at h1; cases h1; exact h2
    intro hm
    simp only [List.mem_cons, List.mem_append, ATask.base.injEq, reduceCtorEq, false_or] at hm
    rcases hm with hm | hm
    · obtain ⟨t0, h1, h2⟩ := p.uw.mem _ hm
      rcases h2 with h2 | ⟨r, h2, h3⟩
      · subst h2; exact h0 h1
      · cases h3
    · rcases cleanup_cases p.clean with ⟨r, hpc, rfl⟩ | ⟨x0, b, og, fs, y, hpc, rfl⟩
      · cases hm
      · simp at hm
  · exact U j clj hj

variable {P : Rules α} {zst : Bool}

theorem Conf.PReach.UI (hP : PTame P) (h : Conf.PReach P zst c) : c.UI := by
  induction h with
  | init => intro i cl hi; simp [Conf.init] at hi
  | run h i e ih =>
    have A := h.IA' hP
    obtain ⟨c2, e2, A2, ge⟩ := A.step (i := i)
    rw [e] at e2; cases e2
    exact ih.step A.bi A2.bi ge.evo (A.ph.fgSafe A.bi i) e
  | start _ op hp e ih => exact ih.start e
  | write _ k en j x hk _ e ih =>
    rcases Conf.write_cases e with rfl | ⟨b, i, rfl⟩
    · exact ih
    · exact ih
  | panic h i e ih => exact ih.panic (h.BI hP).heap e

/-- A destructor that is running can panic. -/
theorem Conf.UI.can (U : c.UI) {cl : Call α} (hi : c.calls[i]? = some cl) (hu : .base .userCode ∈ cl.tasks) : ∃ c', c.panic i = some c' := by
  obtain ⟨h1, _, h3⟩ := U i cl hi
  rcases h1 with h1 | ⟨r, ts, h1, _⟩
  · exact absurd hu h1
  · cases hc : cleanup cl.pc with
    | none => exact (h3 hc _ hu).elim
    | some us => exact ⟨_, by simp only [Conf.panic, hi, h1, hc]; rfl⟩

end
end Verif.Arc
