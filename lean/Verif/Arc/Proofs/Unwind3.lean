import Verif.Arc.Proofs.Unwind2
/-!
# Which calls run item destructors

Only drops and `upgrade`. What `clone_left` and `clone_right` drop are `Arc`s of the slice they were called on, and memory.
-/

namespace Verif.Arc
open Verif.Spec (Side Slot Family Rng End)
open Verif.Rc
variable {α : Type}

/-- `clone_left` and `clone_right` do not look further up than the slice they were called on. -/
def nearW (a : Arena α) (bh : Option Handle) (fs : List GFrame) (R : Prop) (S : Nat → Nat → Prop) : Prop :=
  (R ∧ fs = []) ∨ ∃ z g, bh = some (.strong z g) ∧ S z g ∧ ∀ f ∈ fs, f.p = z ∧ a.par f.x = some z

def pcW (a : Arena α) (bh : Option Handle) : Pc α → Prop
  | .gLoad x fs _ => nearW a bh fs (a.par x = none) fun z _ => x = z ∨ a.par x = some z
  | .gTry x b _ fs _ => nearW a bh fs (a.par x = none) fun z g => (x = z ∧ a.tgt b = some g) ∨ a.par x = some z
  | .gPar x _ fs _ | .gCas x _ _ fs _ => nearW a bh fs (a.par x = none) fun z _ => a.par x = some z
  | .gRet _ fs _ => nearW a bh fs True fun _ _ => True
  | .up _ => False
  | _ => True

def taskW (a : Arena α) (bh : Option Handle) (t : ATask) : Prop :=
  itemless a.b.sk t ∨ ∃ z g, bh = some (.strong z g) ∧ t = .base (.dropS z)

/-- The calls in which items may be dropped. -/
def _root_.Verif.Arc.Op.drops : Op α → Bool
  | .drop _ | .upgrade _ => true
  | _ => false

def Conf.WI (c : Conf α) : Prop := ∀ (i : Nat) cl, c.calls[i]? = some cl → cl.op.drops = false →
  pcW c.a (cl.bh c) cl.pc ∧ ∀ t ∈ cl.tasks, taskW c.a (cl.bh c) t

section
variable {a a' : Arena α}

theorem nearW.any {bh : Option Handle} {fs : List GFrame} {R : Prop} {S : Nat → Nat → Prop} (h : nearW a none fs R S) : nearW a bh fs R S := by
  rcases h with h | ⟨_, _, h, _⟩
  · exact .inl h
  · cases h

theorem pcW.any {bh : Option Handle} {pc : Pc α} (h : pcW a none pc) : pcW a bh pc := by
  cases pc <;> first | exact h | exact nearW.any h

theorem taskW.any {bh : Option Handle} {t : ATask} (h : taskW a none t) : taskW a bh t := by
  rcases h with h | ⟨_, _, h, _⟩
  · exact .inl h
  · cases h

theorem taskW.mono {bh : Option Handle} {t : ATask} (ev : AEvo a a') (hl : ∀ x, .ref x ∈ ataskT t → x < a.b.sk.next) (h : taskW a bh t) :
    taskW a' bh t := h.imp (fun h => h.mono ev hl) id

theorem Chain.lt (P : ParOK a) {fs : List GFrame} {x y : Nat} (h : Chain a x fs y) : x < a.b.sk.next ∧ ∀ f ∈ fs, f.x < a.b.sk.next := by
  induction fs generalizing x with
  | nil => obtain ⟨rfl, _, h⟩ := h; exact ⟨h, by simp⟩
  | cons f fs ih =>
    obtain ⟨rfl, h2, h3⟩ := h
    refine ⟨(P.par _ _ h2).2.1, fun f' hf' => ?_⟩
    rcases List.mem_cons.1 hf' with rfl | hf'
    · exact (P.par _ _ h2).1
    · exact (ih h3).2 f' hf'

theorem nearW.mono {bh : Option Handle} {fs : List GFrame} {R R' : Prop} {S S' : Nat → Nat → Prop} (ev : AEvo a a')
    (hf : ∀ f ∈ fs, f.x < a.b.sk.next) (hR : R → R') (hS : ∀ z g, bh = some (.strong z g) → S z g → S' z g) (h : nearW a bh fs R S) : nearW a' bh fs R' S' := by
  rcases h with ⟨h1, h2⟩ | ⟨z, g, h1, h2, h3⟩
  · exact .inl ⟨hR h1, h2⟩
  · exact .inr ⟨z, g, h1, hS z g h1 h2, fun f hf' => ⟨(h3 f hf').1, by rw [ev.par _ (hf f hf')]; exact (h3 f hf').2⟩⟩

theorem pcW.mono {bh : Option Handle} {pc : Pc α} (ev : GEvo a a') (P : ParOK a) (hp : pcOK a bh pc) (hg : pcG a pc) (h : pcW a bh pc) : pcW a' bh pc := by
  cases pc with
  | gLoad x fs y =>
    obtain ⟨h1, h2⟩ := Chain.lt P hp
    exact nearW.mono ev.evo h2 (by rw [ev.evo.par x h1]; exact id) (fun z g _ => by rw [ev.evo.par x h1]; exact id) h
  | gTry x b o fs y =>
    obtain ⟨h1, h2⟩ := Chain.lt P hp
    exact nearW.mono ev.evo h2 (by rw [ev.evo.par x h1]; exact id) (fun z g _ => by rw [ev.evo.par x h1, ev.tgt b hg.1.1]; exact id) h
  | gPar x b fs y =>
    obtain ⟨h1, h2⟩ := Chain.lt P hp
    exact nearW.mono ev.evo h2 (by rw [ev.evo.par x h1]; exact id) (fun z g _ => by rw [ev.evo.par x h1]; exact id) h
  | gCas x b o fs y =>
    obtain ⟨h1, h2⟩ := Chain.lt P hp
    exact nearW.mono ev.evo h2 (by rw [ev.evo.par x h1]; exact id) (fun z g _ => by rw [ev.evo.par x h1]; exact id) h
  | gRet g fs y =>
    obtain ⟨x, hp⟩ := hp
    exact nearW.mono ev.evo (Chain.lt P hp).2 id (fun _ _ _ => id) h
  | up d => exact h
  | _ => trivial

/-- Dropping an `Arc` of the borrowed slice drops nothing else. -/
theorem drop_shared {h h' : Heap α} {x : Nat} {ts : List Task} (hs : 2 ≤ h.strong x) (e : dropStrong h x = .ok (h', ts)) : ts = [] := by
  simp only [dropStrong] at e
  split at e
  · cases e
  · split at e
    · cases e; rfl
    · omega

theorem taskW_step {t : ATask} {new : List ATask} {bh : Option Handle} {T : List AT} (I : HInv a.b (ataskT t ++ T))
    (hb : ∀ z g, bh = some (.strong z g) → .ref z ∈ T) (B' : Base a'.b.sk) (ev : AEvo a a') (h : taskW a bh t)
    (e : ataskStep a t = .ok (a', new)) : ∀ t' ∈ new, taskW a' bh t' := by
  rcases h with h | ⟨z, g, h1, rfl⟩
  · exact fun t' ht' => .inl (itemless_step I B' ev h e t' ht')
  · obtain ⟨⟨h', ts'⟩, e1, e2⟩ := bind_ok e
    cases pure_ok e2
    have hc : 2 ≤ a.b.strong z := by
      rw [I.good.ledger.s z]
      have h2 := List.count_pos_iff.2 (ref_mem_aS (hb z g h1))
      have h3 : (aS (ataskT (.base (.dropS z)) ++ T)).count z = 1 + (aS T).count z := by
        simp [ataskT, taskT, Nat.add_comm]
      omega
    have := drop_shared hc (show dropStrong a.b z = .ok (h', ts') from e1)
    subst this
    simp

theorem pcW_step {pc : Pc α} {n : Next α} {bh : Option Handle} (P : ParOK a) (P' : ParOK a') (F : GF a) (ev : GEvo a a') (hp : pcOK a bh pc) (hg : pcG a pc)
    (hv : valsOK pc) (hf : ∀ c0 todo g r acc, pc = .imFg (.kid c0 :: todo) g r acc → a.b.strong c0 = 1)
    (hb : ∀ z g, bh = some (.strong z g) → z < a.b.sk.next ∧ ofG a z g ∧ a.gS g ≠ 0 ∧ (∃ v, a.guard g = some v) ∧ ∃ n, a.b.sk.node z = some n)
    (hT : ∀ r, .reg r ∈ pcT pc → RegOK a.b.sk r) (Bk : Base a.b.sk)
    (h : pcW a bh pc) (e : PStep a pc a' n) : pcW a' bh n.pc ∧ ∀ t ∈ n.tasks, taskW a' bh t := by
  have nt : ∀ t ∈ ([] : List ATask), taskW a' bh t := fun _ h => by cases h
  have hgd : ∀ (l : List Nat), ∀ t ∈ l.map ATask.guard, taskW a' bh t := by
    intro l t ht; obtain ⟨t, _, rfl⟩ := List.mem_map.1 ht; exact .inl trivial
  have hroot : ∀ {a1 : Arena α} {r : Reg} {d : Nat}, a1.root r = (a', d) → pcW a' bh (.gLoad d [] d) := by
    intro a1 r d e
    refine .inl ⟨?_, rfl⟩
    cases hq : a'.par d with
    | none => rfl
    | some p =>
      obtain ⟨_, _, _, s, h4⟩ := P'.par d p hq
      rw [(root_eq e).2.2.2.2.2.2.2.2.2.1] at h4
      simp [Lab.child] at h4
  have noself : ∀ {x}, a.par x ≠ some x := by
    intro x hx
    obtain ⟨_, _, _, s, h4⟩ := P.par x x hx
    have := congrArg (fun l => l.path.length) h4
    simp [Lab.child] at this
  cases e with
  | new0 xs hl r a1 d hr e => exact ⟨hroot e, nt⟩
  | new1 xs hl r h1 al a1 d eh hr e => exact ⟨hroot e, nt⟩
  | immut r a1 d e => exact ⟨hroot e, nt⟩
  | nxt en r hp' o r' ts re hre e =>
    refine ⟨trivial, fun t ht => .inl ?_⟩
    obtain ⟨t, h1, rfl⟩ := List.mem_map.1 ht
    have hk := (hT r (by simp [pcT])).1
    have fin : t ∈ r.alloc.toList.map Task.dropS → hp'.sk = a.b.sk → itemless hp'.sk (.base t) := by
      intro h1 e
      obtain ⟨al, h2, rfl⟩ := List.mem_map.1 h1
      rw [e]
      exact Bk.kinds _ _ (hk al (by simpa using h2))
    simp only [iterNext] at e
    split at e
    · cases e
      exact fin h1 rfl
    · split at e
      · cases e
      · split at e
        · split at e <;> split at e <;> cases e <;> first | (exact fin h1 rfl) | cases h1
        · cases e
  | csSame d s v h hd hs e =>
    obtain ⟨g, hp⟩ := hp
    exact ⟨.inr ⟨d, g, hp, .inl rfl, by simp⟩, nt⟩
  | csInc c h e =>
    obtain ⟨z, g, s, v, h1, h2, h3⟩ := hp
    exact ⟨.inr ⟨z, g, h1, .inr (P.kid z v s c h2 h3), by simp⟩, nt⟩
  | csWin d s r v h1 c h2 hd hk e1 e2 =>
    obtain ⟨g, v', hb, _⟩ := hp
    exact ⟨.inr ⟨d, g, hb, .inr (upd_same _ c _), by simp⟩, nt⟩
  | csLose c r h e =>
    obtain ⟨z, g, s, v, h1, h2, h3⟩ := hp
    refine ⟨.inr ⟨z, g, h1, .inr (P.kid z v s c h2 h3), by simp⟩, fun t ht => ?_⟩
    cases List.mem_singleton.1 ht
    exact .inl rfl
  | gLoad x fs y v hd =>
    refine ⟨nearW.mono ev.evo (Chain.lt P hp).2 id (fun z g h1 h2 => ?_) h, nt⟩
    rcases h2 with rfl | h2
    · obtain ⟨h3, ⟨h4, h5⟩, _, ⟨v, h6⟩, n, h7⟩ := hb _ _ h1
      subst h5
      exact .inl ⟨rfl, F.uniq g v n h6 h7⟩
    · exact .inr h2
  | gTryNo x b pend fs y hn =>
    refine ⟨nearW.mono ev.evo (Chain.lt P hp).2 id (fun z g h1 h2 => ?_) h, hgd _⟩
    rcases h2 with ⟨rfl, h2⟩ | h2
    · exact absurd (hn g h2) (hb _ _ h1).2.2.1
    · exact h2
  | gTryOk x b pend fs y g hb hg => exact ⟨nearW.mono ev.evo (Chain.lt P hp).2 (fun _ => trivial) (fun _ _ _ _ => trivial) h, hgd _⟩
  | gParNo x b fs y v hd hp' => exact ⟨h, nt⟩
  | gParUp w b fs y v p hh hd hp' hs e =>
    rcases h with ⟨h1, h2⟩ | ⟨z, g, h1, h2, h3⟩
    · rw [hp'] at h1; cases h1
    · rw [hp'] at h2; cases h2
      refine ⟨.inr ⟨p, g, h1, .inl rfl, fun f hf => ?_⟩, nt⟩
      rcases List.mem_cons.1 hf with rfl | hf
      · exact ⟨rfl, hp'⟩
      · exact h3 f hf
  | gCasWin x b og fs y v hd hb => exact ⟨nearW.mono ev.evo (Chain.lt P hp).2 (fun _ => trivial) (fun _ _ _ _ => trivial) h, nt⟩
  | gCasLost x b og fs y v hd hb => exact ⟨nearW.mono ev.evo (Chain.lt P hp).2 id (fun _ _ _ h => .inr h) h, nt⟩
  | gRet1 g f fs y =>
    rcases h with ⟨_, h2⟩ | ⟨z, gz, h1, h2, h3⟩
    · cases h2
    · obtain ⟨h4, h5⟩ := h3 f (List.mem_cons_self ..)
      refine ⟨.inr ⟨z, gz, h1, h5, fun f' hf' => h3 f' (List.mem_cons_of_mem _ hf')⟩, fun t ht => ?_⟩
      cases List.mem_singleton.1 ht
      exact .inr ⟨z, gz, h1, by rw [h4]⟩
  | imKidNo c todo g r acc v hd hc => exact absurd (hf c todo g r acc rfl) hc
  | imVal w todo g r acc =>
    refine ⟨trivial, fun t ht => ?_⟩
    cases List.mem_singleton.1 ht
    exact .inl (hv w (List.mem_cons_self ..))
  | imGate g r acc v hv =>
    refine ⟨trivial, fun t ht => ?_⟩
    cases List.mem_singleton.1 ht
    exact .inl trivial
  | upN => exact h.elim
  | upNo => exact h.elim
  | up => exact h.elim
  | _ => exact ⟨trivial, nt⟩

end

section
variable {c c' : Conf α} {i : Nat}

theorem Conf.WI.step (W : c.WI) (U : c.UI) (A : c.BI) (F : c.GFI) (A' : c'.BI) (ev : GEvo c.a c'.a) (hf : c.FgSafe i) (h : c.step i = .ok c') : c'.WI := by
  have hl : ∀ {j : Nat} {cl : Call α}, c.calls[j]? = some cl → ∀ t ∈ cl.tasks, ∀ x, .ref x ∈ ataskT t → x < c.a.b.sk.next :=
    fun hj t ht x hx => A.heap.lt (mem_aS (Conf.call_tok hj (List.mem_append_left _ (List.mem_flatMap.2 ⟨t, ht, hx⟩))) (by simp))
  have bh : ∀ {cl : Call α} {z g}, cl.bh c = some (.strong z g) → ∃ k b, c.get k = some ⟨.strong z g, b⟩ := by
    intro cl z g h
    obtain ⟨k, b, _, hk⟩ := Conf.bh_get h
    exact ⟨k, b, hk⟩
  have others : ∀ {cl cl' : Call α} {a' : Arena α} {new : List Ent}, c.calls[i]? = some cl → c' = c.after i a' cl' new →
      cl'.borrow = cl.borrow → cl'.op = cl.op → (cl.op.drops = false → pcW a' (cl.bh c) cl'.pc ∧ ∀ t ∈ cl'.tasks, taskW a' (cl.bh c) t) → c'.WI := by
    rintro cl cl' a' new hi rfl hb ho hn j clj hj hd
    rcases after_calls hi hj with ⟨rfl, rfl⟩ | ⟨_, hj⟩
    · have e : Call.bh { cl' with out := cl'.out ++ List.range' c.hs.length new.length } (c.after j a' cl' new) = cl.bh (c.after j a' cl' new) := by
        simp only [Call.bh, hb]
      show pcW a' _ _ ∧ ∀ t ∈ cl'.tasks, taskW a' _ t
      rw [e]
      obtain ⟨h1, h2⟩ := hn (by rw [← ho]; exact hd)
      rcases after_bh (c := c) (i := j) cl cl' a' new with h | h
      · rw [h] at h1 h2; exact ⟨h1.any, fun t ht => (h2 t ht).any⟩
      · rw [h]; exact ⟨h1, h2⟩
    · obtain ⟨h3, h4⟩ := W j clj hj hd
      have h5 := h3.mono ev A.par (A.calls j clj hj).1 (F.calls j clj hj).1
      have h6 := fun t ht => (h4 t ht).mono ev.evo (hl hj t ht)
      rcases after_bh (c := c) (i := i) clj cl' a' new with h | h
      · rw [h] at h5 h6; exact ⟨h5.any, fun t ht => (h6 t ht).any⟩
      · rw [h]; exact ⟨h5, h6⟩
  cases CStep.of h with
  | none h => exact W
  | task cl t ts a' new hi ht e =>
    refine others (cl' := { cl with tasks := new ++ ts }) hi rfl rfl rfl fun hd => ?_
    obtain ⟨h3, h4⟩ := W i cl hi hd
    refine ⟨h3.mono ev A.par (A.calls i cl hi).1 (F.calls i cl hi).1, fun t' ht' => ?_⟩
    rcases List.mem_append.1 ht' with ht' | ht'
    · have I : HInv c.a.b (ataskT t ++ (ts.flatMap ataskT ++ pcT cl.pc ++ c.rest i)) := by
        have := A.heap.perm (Conf.T_perm hi)
        simpa [callT, ht, List.append_assoc] using this
      refine taskW_step I (fun z g hz => ?_) A'.heap.base ev.evo (h4 t (by simp [ht])) e t' ht'
      obtain ⟨k, b, hk⟩ := bh hz
      refine List.mem_append_right _ (List.mem_append_left _ (List.mem_flatMap.2 ⟨some _, Conf.get_mem hk, by simp [slotT, entT]⟩))
    · exact (h4 t' (by simp [ht, ht'])).mono ev.evo (hl hi t' (by simp [ht, ht']))
  | pc cl a' n hi ht e =>
    refine others (cl' := { cl with pc := n.pc, tasks := n.tasks }) hi rfl rfl rfl fun hd => ?_
    refine pcW_step A.par A'.par F.gf ev (A.calls i cl hi).1 (F.calls i cl hi).1 (U i cl hi).2.1
      (fun c0 todo g r acc hp => hf cl c0 todo g r acc hi ht hp) (fun z g hz => ?_)
      (fun r hr => A.heap.regs r (Conf.call_tok hi (List.mem_append_right _ hr))) A.heap.base (W i cl hi hd).1 (.of e)
    obtain ⟨k, b, hk⟩ := bh hz
    have h1 : .ref z ∈ c.T := Conf.get_tok' hk (by simp [entT])
    obtain ⟨v, hv, h2⟩ := BI_gd A.gi (Conf.get_tok' hk (t := .gd g) (by simp [entT]))
    refine ⟨A.heap.lt (ref_mem_aS h1), F.ents k _ hk, h2, ⟨v, hv⟩, ?_⟩
    obtain ⟨o, ho, _⟩ := A.shows hk
    obtain ⟨v, e1, e2⟩ := bind_ok ho
    exact ⟨_, getData_some e1⟩

theorem Conf.WI.start {op : Op α} (W : c.WI) (h : c.start op = some c') : c'.WI := by
  have ea := (Conf.start_T h).2
  have hs := SStep.of h
  intro j cl hj hd
  rw [ea]
  rcases start_call hs hj with h | ⟨_, hcl, _, h⟩
  · obtain ⟨h1, h2⟩ := W j cl h hd
    cases hf : cl.fin with
    | true => obtain ⟨r, h3, h4⟩ := fin_pc hf; rw [h3, h4]; exact ⟨trivial, by simp⟩
    | false =>
      rcases start_bh hs h hf with h3 | h3
      · rw [h3] at h1 h2; exact ⟨h1.any, fun t ht => (h2 t ht).any⟩
      · rw [h3]; exact ⟨h1, h2⟩
  · rw [hcl] at hd
    rcases h with ⟨_, hp, ht, _⟩ | ⟨_, hp, ht, _⟩ | ⟨k, d, g, hk, _, _, ht, hp⟩ | ⟨k, d, g, b, hk, _, _, ht, hp⟩ |
      ⟨k, d, g, hk, _, _, _, hp⟩ | ⟨k, d, g, b, hk, _, _, _, ho, hp, ht⟩ | ⟨k, r, b, hk, _, _, _, hp⟩
    · rw [hp, ht]; exact ⟨trivial, by simp⟩
    · rw [hp, ht]; exact ⟨trivial, by simp⟩
    · rw [ht]
      rcases hp with ⟨_, hp⟩ | ⟨s, _, hp⟩ | ⟨_, hp⟩ <;> rw [hp] <;> exact ⟨trivial, by simp⟩
    · rw [ht]
      rcases hp with ⟨_, hp⟩ | ⟨h1, hp⟩
      · rw [hp]; exact ⟨trivial, by simp⟩
      · subst h1; cases hd
    · rcases hp with ⟨_, hp, ht⟩ | ⟨_, hp, ht⟩ | ⟨ho, hp, ht⟩
      · rw [hp, ht]; exact ⟨trivial, by simp⟩
      · rw [hp, ht]; exact ⟨trivial, by simp⟩
      · subst ho; cases hd
    · subst ho; cases hd
    · rcases hp with ⟨_, hp, ht⟩ | ⟨_, _, hp, ht⟩ | ⟨_, _, hp, ht⟩ | ⟨_, _, _, hp, ht⟩ | ⟨ho, hp, ht⟩
      · rw [hp, ht]; exact ⟨trivial, by simp⟩
      · rw [hp, ht]; exact ⟨trivial, by simp⟩
      · rw [hp, ht]; exact ⟨trivial, by simp⟩
      · rw [hp, ht]; exact ⟨trivial, by simp⟩
      · subst ho; cases hd

theorem Conf.WI.write {e : Ent} {j : Nat} {x : α} (W : c.WI) (h : c.write e j x = .ok c') : c'.WI := by
  rcases Conf.write_cases h with rfl | ⟨b, i0, rfl⟩
  · exact W
  · intro i cl hi hd
    obtain ⟨h1, h2⟩ := W i cl hi hd
    have hb : Call.bh cl { c with a := c.a.withB (c.a.b.setSlot b i0 (.live x)) } = cl.bh c := rfl
    rw [hb]
    refine ⟨?_, fun t ht => h2 t ht⟩
    revert h1
    generalize cl.pc = pc
    intro h1
    cases pc <;> exact h1

theorem taskW.not_user {a : Arena α} {bh : Option Handle} (h : taskW a bh (.base .userCode)) : False := by
  rcases h with h | ⟨_, _, _, h⟩
  · exact h
  · cases h

theorem Conf.WI.panic (W : c.WI) (A : c.BI) (e : c.panic i = some c') : c'.WI := by
  obtain ⟨cl, r, ts, ts', us, s, p⟩ := Panicked.of A.heap e
  intro j clj hj hd
  rw [p.bh]
  rcases p.calls hj with ⟨rfl, rfl⟩ | ⟨_, hj⟩
  · exact ((W j cl p.call hd).2 _ (by rw [p.tasks]; exact List.mem_cons_self ..)).not_user.elim
  · obtain ⟨h1, h2⟩ := W j clj hj hd
    rw [p.eq]
    refine ⟨?_, fun t ht => h2 t ht⟩
    revert h1
    generalize clj.pc = pc
    intro h1
    cases pc <;> exact h1

variable {P : Rules α} {zst : Bool}

theorem Conf.PReach.WI (hP : PTame P) (h : Conf.PReach P zst c) : c.WI := by
  induction h with
  | init => intro i cl hi; simp [Conf.init] at hi
  | run h i e ih =>
    have A := h.IA' hP
    obtain ⟨c2, e2, A2, ge⟩ := A.step (i := i)
    rw [e] at e2; cases e2
    exact ih.step (h.UI hP) A.bi A.gf A2.bi ge (A.ph.fgSafe A.bi i) e
  | start _ op hp e ih => exact ih.start e
  | write _ k en j x hk _ e ih => exact ih.write e
  | panic h i e ih => exact ih.panic (h.BI hP) e

theorem Conf.NxtI.panic (N : c.NxtI) (A : c.BI) (e : c.panic i = some c') : c'.NxtI := by
  obtain ⟨cl, r, ts, ts', us, s, p⟩ := Panicked.of A.heap e
  intro j clj hj
  rcases p.calls hj with ⟨rfl, rfl⟩ | ⟨_, hj⟩
  · trivial
  · exact N j clj hj

theorem Conf.PReach.nxtOp (hP : PTame P) (h : Conf.PReach P zst c) : c.NxtI := by
  induction h with
  | init => intro i cl hi; simp [Conf.init] at hi
  | run _ i e ih => exact ih.step e
  | start _ op hp e ih => exact ih.start e
  | write _ k en j x hk _ e ih => exact ih.write e
  | panic h i e ih => exact ih.panic (h.BI hP) e

/-- A panic takes all calls together closer to the end. -/
theorem panic_down (A : HInv c.a.b c.T) (e : c.panic i = some c') : Prod.Lex (· < ·) (· < ·) c'.mu c.mu := by
  obtain ⟨cl, r, ts, ts', us, s, p⟩ := Panicked.of A e
  have hrho : ∀ pc : Pc α, rho c.calls.length c'.a pc = rho c.calls.length c.a pc := by
    intro pc; rw [p.eq]; exact rho_same fun x _ => ⟨rfl, rfl⟩
  have htau : aTau c'.a = aTau c.a := by rw [p.eq]; rfl
  have hlen : c'.calls.length = c.calls.length := by rw [p.eq]; simp
  have hset : c'.calls = c.calls.set i { cl with pc := .done .panic, tasks := .base (.dropReg r) :: (ts' ++ us) } := by rw [p.eq]
  have h1 := sum_set (fun cl : Call α => rho c.calls.length c.a cl.pc) (fun cl => rho c.calls.length c.a cl.pc) 0
    { cl with pc := .done .panic, tasks := .base (.dropReg r) :: (ts' ++ us) } p.call (fun _ _ _ _ => Nat.le_refl _)
  have h2 := sum_set (tau (α := α)) tau 0 { cl with pc := .done .panic, tasks := .base (.dropReg r) :: (ts' ++ us) } p.call
    (fun _ _ _ _ => Nat.le_refl _)
  have hm : c'.mu = (((c.calls.set i { cl with pc := .done .panic, tasks := .base (.dropReg r) :: (ts' ++ us) }).map
      fun cl => rho c.calls.length c.a cl.pc).sum,
      aTau c.a + ((c.calls.set i { cl with pc := .done .panic, tasks := .base (.dropReg r) :: (ts' ++ us) }).map tau).sum) := by
    simp only [Conf.mu, hlen, htau, ← hset]
    simp only [hrho]
  have h0 : rho c.calls.length c.a ({ cl with pc := .done .panic, tasks := .base (.dropReg r) :: (ts' ++ us) } : Call α).pc = 0 := rfl
  rw [hm]
  rcases cleanup_cases p.clean with ⟨r0, hpc, rfl⟩ | ⟨x0, b, og, fs, y, hpc, rfl⟩
  · have h00 : rho c.calls.length c.a cl.pc = 0 := by rw [hpc]; rfl
    refine lex_le (by omega) ?_
    have h3 := p.uw.cost
    have h4 : tau { cl with pc := .done .panic, tasks := .base (.dropReg r) :: (ts' ++ []) } < tau cl := by
      simp only [tau, p.tasks, hpc, pcTodo, List.append_nil, List.map_cons, List.sum_cons, tcost, Task.cost]; omega
    omega
  · refine .left _ _ ?_
    have h3 : 2 ≤ rho c.calls.length c.a cl.pc := by
      simp only [hpc, rho, fr, aCost]; omega
    omega

end
end Verif.Arc
