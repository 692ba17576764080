import Verif.Arc.Proofs.Origin
/-!
# How calls without a guard are covered

A call that holds slice data without holding its guard either holds data that nothing
above can reach any more, or has borrowed a handle (with a guard) to the data or to its
parent. (Upgrading a `WeakSlice` breaks this, so calls of `upgrade` are excepted.)
-/

namespace Verif.Arc
open Verif.Spec (Side Slot Family Rng End)
open Verif.Rc
variable {α : Type}

def yC (a : Arena α) (bh : Option Handle) (y : Nat) : Prop :=
  Loose a y ∨ ∃ z gz, bh = some (.strong z gz) ∧ (y = z ∨ a.par y = some z)

/-- `up`: the subslice of which the call is an `upgrade`, if it is one. -/
def pcC (a : Arena α) (bh : Option Handle) (up : Option Nat) : Pc α → Prop
  | .gLoad _ _ y | .gTry _ _ _ _ y | .gPar _ _ _ y | .gCas _ _ _ _ y | .gRet _ _ y => up = some y ∨ yC a bh y
  | .imFg todo _ _ _ => ∀ c, .kid c ∈ todo → Loose a c
  | .up d => up = d
  | _ => True

/-- `x` is above something that is next to what is borrowed. -/
def aboveC (a : Arena α) (bh : Option Handle) (up : Option Nat) (x : Nat) : Prop :=
  (∃ u, up = some u ∧ u < a.b.sk.next ∧ (a.b.sk.lab x).up (a.b.sk.lab u)) ∨ ∃ y, y < a.b.sk.next ∧ a.b.sk.kind y = .data ∧ (a.b.sk.lab x).up (a.b.sk.lab y) ∧ yC a bh y

/-- Drops of calls that panicked are in the last case. -/
def taskC (a : Arena α) (bh : Option Handle) (up : Option Nat) (pc : Pc α) : ATask → Prop
  | .base (.dropS x) => a.b.sk.kind x = .data → Loose a x ∨ (∃ g, .gd g ∈ pcT pc ∧ ofG a x g) ∨ aboveC a bh up x
  | _ => True

section
variable {a a' : Arena α}

theorem yC.mono {bh : Option Handle} {y : Nat} (e : AEvo a a') (B : Base a.b.sk) (B' : Base a'.b.sk) (hy : y < a.b.sk.next)
    (hk : a.b.sk.kind y = .data) (h : yC a bh y) : yC a' bh y := by
  rcases h with h | ⟨z, gz, h1, h2⟩
  · exact .inl (h.mono e B B' hy hk)
  · exact .inr ⟨z, gz, h1, by rw [e.par y hy]; exact h2⟩

theorem Chain.endp {fs : List GFrame} {x y : Nat} (h : Chain a x fs y) : a.b.sk.kind y = .data ∧ y < a.b.sk.next := by
  induction fs generalizing x with
  | nil => obtain ⟨_, h2, h3⟩ := h; exact ⟨h2, h3⟩
  | cons f fs ih => exact ih h.2.2

theorem pcC.mono {bh : Option Handle} {up : Option Nat} {pc : Pc α} (e : AEvo a a') (B : Base a.b.sk) (B' : Base a'.b.sk) (hp : pcOK a bh pc)
    (hl : ∀ x, .ref x ∈ pcT pc → x < a.b.sk.next) (h : pcC a bh up pc) : pcC a' bh up pc := by
  cases pc with
  | gLoad x fs y => exact h.imp id (yC.mono e B B' (Chain.endp hp).2 (Chain.endp hp).1)
  | gTry x b o fs y => exact h.imp id (yC.mono e B B' (Chain.endp hp).2 (Chain.endp hp).1)
  | gPar x b fs y => exact h.imp id (yC.mono e B B' (Chain.endp hp).2 (Chain.endp hp).1)
  | gCas x b o fs y => exact h.imp id (yC.mono e B B' (Chain.endp hp).2 (Chain.endp hp).1)
  | gRet g fs y => obtain ⟨x, hp⟩ := hp; exact h.imp id (yC.mono e B B' (Chain.endp hp).2 (Chain.endp hp).1)
  | imFg todo g r acc =>
    intro c hc
    refine (h c hc).mono e B B' (hl c ?_) (hp.2.1 c hc)
    simp only [pcT, List.mem_cons, List.mem_append, List.mem_map]
    exact .inr (.inr (.inr ⟨.kid c, hc, rfl⟩))
  | up d => exact h
  | _ => trivial

theorem aboveC.mono {bh : Option Handle} {up : Option Nat} {x : Nat} (e : AEvo a a') (B : Base a.b.sk) (B' : Base a'.b.sk) (hx : x < a.b.sk.next)
    (h : aboveC a bh up x) : aboveC a' bh up x := by
  rcases h with ⟨u, h1, h2, h3⟩ | ⟨y, h1, h2, h3, h4⟩
  · exact .inl ⟨u, h1, Nat.lt_of_lt_of_le h2 e.evo.next, by rw [e.evo.lab x hx, e.evo.lab u h2]; exact h3⟩
  · refine .inr ⟨y, Nat.lt_of_lt_of_le h1 e.evo.next, by rw [e.evo.kind y h1]; exact h2, ?_, h4.mono e B B' h1 h2⟩
    rw [e.evo.lab x hx, e.evo.lab y h1]; exact h3

theorem taskC.mono {bh : Option Handle} {up : Option Nat} {pc : Pc α} {t : ATask} (e : GEvo a a') (B : Base a.b.sk) (B' : Base a'.b.sk)
    (hl : ∀ x, .ref x ∈ ataskT t → x < a.b.sk.next) (h : taskC a bh up pc t) : taskC a' bh up pc t := by
  cases t with
  | base t =>
    cases t with
    | dropS x =>
      intro hk
      have hx := hl x (by simp [ataskT, taskT])
      rw [e.evo.evo.kind x hx] at hk
      rcases h hk with h | ⟨g, h1, h2⟩ | h
      · exact .inl (h.mono e.evo B B' hx hk)
      · exact .inr (.inl ⟨g, h1, h2.mono e⟩)
      · exact .inr (.inr (h.mono e.evo B B' hx))
    | _ => trivial
  | _ => trivial

/-! ## What is loose -/

/-- Data with no reference except one that is held is loose. -/
theorem Loose.solo {T : List AT} {w : Nat} {v : DataV} (I : HInv a.b (.ref w :: T)) (h1 : a.b.strong w = 1)
    (hw : a.b.sk.node w = some (.data v)) : Loose a w := by
  intro q u hq hu
  refine Decidable.byContradiction fun hne => ?_
  obtain ⟨p, up, s, h2, h3, _⟩ := parent_live I.good.shape.toDShape hq hw hu hne
  have g : Good a.b (w :: aS T) [] (aG T) := I.good
  refine g.ledger.no_ref h1 h2 ?_
  cases s <;> simp [Node.srefs, h3]

/-- The children of what is gone are loose. -/
theorem Loose.kid {T : List AT} {w x : Nat} {v : DataV} {s : Side} (I : HInv a.b (.ref w :: T)) (P : ParOK a) (B' : Base a'.b.sk)
    (e : AEvo a a') (h1 : a.b.strong w = 1) (hw : a.b.sk.node w = some (.data v)) (hk : v.kids s = some x) (hd : a'.b.sk.node w = none)
    (hn : a'.b.sk.next = a.b.sk.next) : Loose a' x := by
  have S := I.good.shape.toDShape
  have hl := Loose.solo I h1 hw
  obtain ⟨_, hlx, vx, hx⟩ := S.dataKid w v s x hw hk
  have hxl := I.base.lt hx
  intro q u hq hu
  refine Decidable.byContradiction fun hne => ?_
  -- something above `x` is above `w`
  have key : ∀ q0 u0, a.b.sk.node q0 = some (.data u0) → (a.b.sk.lab q0).up (a.b.sk.lab x) → a.b.sk.lab q0 ≠ a.b.sk.lab x → q0 = w := by
    intro q0 u0 hq0 hu0 hne0
    obtain ⟨p, up, t, h2, h3, h4⟩ := parent_live S hq0 hx hu0 hne0
    have h5 := P.kid p up t x h2 h3
    rw [P.kid w v s x hw hk] at h5
    cases h5
    exact S.dataUniq q0 u0 w v hq0 hw (hl q0 u0 hq0 h4)
  rw [e.evo.lab x hxl] at hu hne
  have hlt : q < a.b.sk.next := by rw [← hn]; exact B'.lt hq
  rw [e.evo.lab q hlt] at hu hne
  cases hq0 : a.b.sk.node q with
  | none => rw [e.evo.dead q hlt hq0] at hq; cases hq
  | some n =>
    have : n.kind = .data := by
      rw [← I.base.kinds q n hq0, ← e.evo.kind q hlt]; exact B'.kinds q _ hq
    obtain ⟨u0, rfl⟩ := data_of_kind this
    have := key q u0 hq0 hu hne
    subst this
    rw [hd] at hq; cases hq

theorem HInv.front {h : Heap α} {U T : List AT} {w : Nat} (I : HInv h (U ++ T)) (hw : .ref w ∈ U) : ∃ T', HInv h (.ref w :: T') := by
  obtain ⟨A, B, rfl⟩ := List.append_of_mem hw
  refine ⟨A ++ B ++ T, I.perm ?_⟩
  simp only [List.append_assoc, List.cons_append]
  exact List.perm_middle

/-! ## Steps -/

theorem cov_task {t : ATask} {ts : List ATask} {T : List AT} {bh : Option Handle} {up : Option Nat} {pc : Pc α} (I : HInv a.b (ataskT t ++ T)) (P : ParOK a) (B' : Base a'.b.sk)
    (ev : AEvo a a') (hp : aplain t) (e : ataskStep a t = .ok (a', ts)) : ∀ t' ∈ ts, taskC a' bh up pc t' := by
  intro t' ht'
  cases t' with
  | base t' =>
    cases t' with
    | dropS x =>
      intro hk
      have hx : .ref x ∈ ts.flatMap ataskT := List.mem_flatMap.2 ⟨_, ht', by simp [ataskT, taskT]⟩
      have hn := ataskStep_next I hp e
      have hk0 : a.b.sk.kind x = .data := by
        by_cases hx : x < a.b.sk.next
        · rw [← ev.evo.kind x hx]; exact hk
        · cases t with
          | base t =>
            obtain ⟨⟨h', ts'⟩, e1, e2⟩ := bind_ok e
            cases pure_ok e2
            obtain ⟨h2, ts2, e3, _, _, hs, _⟩ := HInv.task (t := t) I hp
            rw [e1] at e3; cases e3
            have : h'.sk.kind x = .data := hk
            rw [hs.sk] at this; exact this
          | slice d g =>
            obtain ⟨⟨h', ts'⟩, e1, e2⟩ := bind_ok e
            cases pure_ok e2
            have I1 : HInv a.b (.ref d :: (.gd g :: T)) := I
            obtain ⟨h2, ts2, e3, _, _, hs, _⟩ := I1.dropS
            rw [e1] at e3; cases e3
            have : h'.sk.kind x = .data := hk
            rw [hs.sk] at this; exact this
          | guard g =>
            simp only [ataskStep, Arena.dropG] at e
            split at e
            · cases e
            · split at e
              · cases e; exact hk
              · split at e <;> cases e
                exact hk
      obtain ⟨w, v, s, h1, h2, h3, h4, h5⟩ := task_dropS I hp e hx hk0
      obtain ⟨T', I'⟩ := I.front h1
      exact .inl (Loose.kid I' P B' ev h2 h3 h4 h5 hn)
    | _ => trivial
  | _ => trivial

theorem cov_pc {pc : Pc α} {n : Next α} {T : List AT} {bh : Option Handle} {up : Option Nat} (I : HInv a.b (pcT pc ++ T)) (P : ParOK a) (P' : ParOK a')
    (hp : pcOK a bh pc) (hg : pcG a pc) (hc : pcC a bh up pc) (B' : Base a'.b.sk) (ev : AEvo a a') (e : PStep a pc a' n) :
    pcC a' bh up n.pc ∧ ∀ t ∈ n.tasks, taskC a' bh up n.pc t := by
  have B := I.base
  have hl : ∀ x, .ref x ∈ pcT pc → x < a.b.sk.next := fun x hx => I.lt (mem_aS (List.mem_append_left _ hx) (by simp))
  have nt : ∀ {pc : Pc α}, ∀ t ∈ ([] : List ATask), taskC a' bh up pc t := fun _ h => by cases h
  have hgd : ∀ {pc : Pc α} (l : List Nat), ∀ t ∈ l.map ATask.guard, taskC a' bh up pc t := by
    intro pc l t ht; obtain ⟨t, _, rfl⟩ := List.mem_map.1 ht; trivial
  have ym : ∀ {y}, a.b.sk.kind y = .data ∧ y < a.b.sk.next → up = some y ∨ yC a bh y → up = some y ∨ yC a' bh y := fun h1 h2 =>
    h2.imp id fun h2 => h2.mono ev B B' h1.2 h1.1
  have hroot : ∀ {a1 a2 : Arena α} {r : Reg} {d : Nat}, a1.root r = (a2, d) → up = some d ∨ yC a2 bh d := by
    intro a1 a2 r d e
    refine .inr (.inl fun q v hq hu => ?_)
    have hre := (root_eq e).2.2.2.2.2.2.2.2.2.1
    rw [hre] at hu ⊢
    obtain ⟨h1, h2⟩ := hu
    have h3 : (a2.b.sk.lab q).path = [] := List.eq_nil_of_suffix_nil h2
    generalize a2.b.sk.lab q = l at *
    cases l; simp_all
  cases e with
  | done r => exact ⟨trivial, nt⟩
  | new0 xs hl r a1 d hr e => exact ⟨hroot e, nt⟩
  | new1 xs hl r h1 al a1 d eh hr e => exact ⟨hroot e, nt⟩
  | mutNew xs h r e => exact ⟨trivial, nt⟩
  | immut r a1 d e => exact ⟨hroot e, nt⟩
  | split s r h new rest e => exact ⟨trivial, nt⟩
  | nxt en r h o r' ts re hre e =>
    obtain ⟨h', o', r2, ts', e', _, ek, ho, _⟩ := HInv.iterNext (T := T) (r := r) I en
    rw [e] at e'; cases e'
    refine ⟨trivial, fun t ht => ?_⟩
    obtain ⟨t, h1, rfl⟩ := List.mem_map.1 ht
    obtain ⟨b, rfl, hb⟩ := ho t h1
    intro hk
    have hk' : h.sk.kind b = .data := hk
    rw [ek, hb] at hk'; cases hk'
  | cutF n r h new rest hn e => exact ⟨trivial, nt⟩
  | cutB n r h new rest hn e => exact ⟨trivial, nt⟩
  | cutNo en n r hn => exact ⟨trivial, nt⟩
  | cl1 d g h e => exact ⟨trivial, nt⟩
  | cl2 d g h => exact ⟨trivial, nt⟩
  | waitC d g s v hv hc => exact ⟨trivial, nt⟩
  | waitO d g s v hv hc => exact ⟨trivial, nt⟩
  | csSame d s v h hd hs e =>
    obtain ⟨g, hp⟩ := hp
    exact ⟨.inr (.inr ⟨d, g, hp, .inl rfl⟩), nt⟩
  | csKid d s v c hd hs hk => exact ⟨trivial, nt⟩
  | csNo d s v hd hs hk => exact ⟨trivial, nt⟩
  | csInc c h e =>
    obtain ⟨z, g, s, v, h1, h2, h3⟩ := hp
    exact ⟨.inr (.inr ⟨z, g, h1, .inr (P.kid z v s c h2 h3)⟩), nt⟩
  | csNew d s v h hd e => exact ⟨trivial, nt⟩
  | csWin d s r v h1 c h2 hd hk e1 e2 =>
    obtain ⟨g, v', hb, _⟩ := hp
    exact ⟨.inr (.inr ⟨d, g, hb, .inr (upd_same _ c _)⟩), nt⟩
  | csLost d s r v c hd hk => exact ⟨trivial, nt⟩
  | csLose c r h e =>
    obtain ⟨z, g, s, v, h1, h2, h3⟩ := hp
    refine ⟨.inr (.inr ⟨z, g, h1, .inr (P.kid z v s c h2 h3)⟩), fun t ht => ?_⟩
    simp only [List.mem_singleton] at ht; subst ht; trivial
  | gLoad x fs y v hd => exact ⟨ym (Chain.endp hp) hc, nt⟩
  | gTryNo x b pend fs y h => exact ⟨ym (Chain.endp hp) hc, hgd _⟩
  | gTryOk x b pend fs y g hb hg => exact ⟨ym (Chain.endp hp) hc, hgd _⟩
  | gParNo x b fs y v hd hp' => exact ⟨ym (Chain.endp hp) hc, nt⟩
  | gParUp w b fs y v p h hd hp' hs e => exact ⟨ym (Chain.endp hp) hc, nt⟩
  | gCasWin x b og fs y v hd hb => exact ⟨ym (Chain.endp hp) hc, nt⟩
  | gCasLost x b og fs y v hd hb => exact ⟨ym (Chain.endp hp) hc, nt⟩
  | gRet0 g y => exact ⟨trivial, nt⟩
  | gRet1 g f fs y =>
    obtain ⟨x, hp⟩ := hp
    refine ⟨ym (Chain.endp hp) hc, fun t ht => ?_⟩
    simp only [List.mem_singleton] at ht; subst ht
    exact fun _ => .inr (.inl ⟨g, by simp [pcT], hg.1⟩)
  | gm0No | gm0 | gm1No | gm1 | gm2No | gm2 | gm3No | gm3 | gm4No | gm4 | gmOpenC | gmOpenD => exact ⟨trivial, nt⟩
  | im0No | im0 | im1No | im1 | im2No | imOpen | imFg0 => exact ⟨trivial, nt⟩
  | im2 d g v hd h1 =>
    refine ⟨fun c hc => ?_, nt⟩
    obtain ⟨s, hs⟩ := ref_kidsFg (v := v) (List.mem_map.2 ⟨.kid c, hc, rfl⟩)
    obtain ⟨T', I'⟩ := I.front (w := d) (by simp [pcT])
    exact Loose.kid I' P B' ev h1 (getData_some hd) hs (upd_same _ d _) rfl
  | imKid c todo g r acc v hd h1 =>
    refine ⟨fun c' hc' => ?_, nt⟩
    simp only [List.mem_append, List.mem_cons, reduceCtorEq, false_or] at hc'
    rcases hc' with hc' | hc'
    · obtain ⟨s, hs⟩ := ref_kidsFg (v := v) (List.mem_map.2 ⟨.kid c', hc', rfl⟩)
      obtain ⟨T', I'⟩ := I.front (w := c) (by simp [pcT, fgT])
      exact Loose.kid I' P B' ev h1 (getData_some hd) hs (upd_same _ c _) rfl
    · have hm : .kid c' ∈ Fg.kid c :: todo := List.mem_cons_of_mem _ hc'
      refine (hc c' hm).mono ev B B' (hl c' ?_) (hp.2.1 c' hm)
      simp only [pcT, List.mem_cons, List.mem_append, List.mem_map]
      exact .inr (.inr (.inr ⟨.kid c', List.mem_cons.1 hm, rfl⟩))
  | imKidNo c todo g r acc v hd h1 =>
    refine ⟨fun c' hc' => hc c' (List.mem_cons_of_mem _ hc'), fun t ht => ?_⟩
    simp only [List.mem_singleton] at ht; subst ht
    exact fun _ => .inl (hc c (List.mem_cons_self ..))
  | imVal w todo g r acc =>
    refine ⟨fun c' hc' => hc c' (List.mem_cons_of_mem _ hc'), fun t ht => ?_⟩
    simp only [List.mem_singleton] at ht; subst ht; trivial
  | imGate g r acc v hv =>
    refine ⟨trivial, fun t ht => ?_⟩
    simp only [List.mem_singleton] at ht; subst ht; trivial
  | imOk | dg0C | dg0O | dg1 | wcN | wc | wdN | wd => exact ⟨trivial, nt⟩
  | upN | upNo => exact ⟨trivial, nt⟩
  | up d h hs e => exact ⟨.inl hc, nt⟩

end

section
variable {c : Conf α}

/-- The subslice a call of `upgrade` is about. -/
def Call.upOn (cl : Call α) : Option Nat := if cl.op.isUpgrade then cl.on else none

def Conf.CovI (c : Conf α) : Prop :=
  ∀ (i : Nat) cl, c.calls[i]? = some cl → pcC c.a (cl.bh c) cl.upOn cl.pc ∧ ∀ t ∈ cl.tasks, taskC c.a (cl.bh c) cl.upOn cl.pc t

/-- A call that has returned needs nothing. -/
theorem fin_pc {cl : Call α} (h : cl.fin = true) : ∃ r, cl.pc = .done r ∧ cl.tasks = [] := by
  simp only [Call.fin, Bool.and_eq_true, List.isEmpty_iff] at h
  obtain ⟨h1, h2⟩ := h
  cases hp : cl.pc <;> rw [hp] at h2 <;> simp [Pc.isDone] at h2
  exact ⟨_, rfl, h1⟩

theorem pcC.any {a : Arena α} {bh : Option Handle} {up : Option Nat} {pc : Pc α} (h : pcC a none up pc) : pcC a bh up pc := by
  have hy : ∀ y, up = some y ∨ yC a none y → up = some y ∨ yC a bh y := by
    rintro y (h | h | ⟨_, _, h, _⟩)
    · exact .inl h
    · exact .inr (.inl h)
    · cases h
  cases pc <;> first | exact h | exact hy _ h

theorem taskC.any {a : Arena α} {bh : Option Handle} {up : Option Nat} {pc : Pc α} {t : ATask} (h : taskC a none up pc t) : taskC a bh up pc t := by
  cases t with
  | base t =>
    cases t with
    | dropS x =>
      intro hk
      rcases h hk with h | h | h | ⟨y, h1, h2, h3, h | ⟨_, _, h, _⟩⟩
      · exact .inl h
      · exact .inr (.inl h)
      · exact .inr (.inr (.inl h))
      · exact .inr (.inr (.inr ⟨y, h1, h2, h3, .inl h⟩))
      · cases h
    | _ => trivial
  | _ => trivial

theorem Conf.CovI.step {c' : Conf α} {i : Nat} (C : c.CovI) (F : c.GFI) (B : c.BI) (B' : c'.BI) (ev : GEvo c.a c'.a)
    (h : c.step i = .ok c') : c'.CovI := by
  have Bk := B.heap.base
  have Bk' := B'.heap.base
  have hl : ∀ {j : Nat} {cl : Call α}, c.calls[j]? = some cl → ∀ x, .ref x ∈ callT cl → x < c.a.b.sk.next :=
    fun hj x hx => B.heap.lt (mem_aS (Conf.call_tok hj hx) (by simp))
  have others : ∀ {cl cl' : Call α} {a' : Arena α} {new : List Ent}, c.calls[i]? = some cl → c' = c.after i a' cl' new →
      cl'.borrow = cl.borrow → cl'.upOn = cl.upOn → pcC a' (cl.bh c) cl.upOn cl'.pc → (∀ t ∈ cl'.tasks, taskC a' (cl.bh c) cl.upOn cl'.pc t) → c'.CovI := by
    rintro cl cl' a' new hi rfl hb ho h1 h2 j clj hj
    rcases after_calls hi hj with ⟨rfl, rfl⟩ | ⟨_, hj⟩
    · have e : Call.bh { cl' with out := cl'.out ++ List.range' c.hs.length new.length } (c.after j a' cl' new) = cl.bh (c.after j a' cl' new) := by
        simp only [Call.bh, hb]
      show pcC _ _ cl'.upOn _ ∧ ∀ t ∈ cl'.tasks, taskC a' _ cl'.upOn cl'.pc t
      rw [e, ho]
      rcases after_bh (c := c) (i := j) cl cl' a' new with h | h
      · rw [h] at h1 h2; exact ⟨h1.any, fun t ht => (h2 t ht).any⟩
      · rw [h]; exact ⟨h1, h2⟩
    · obtain ⟨h3, h4⟩ := C j clj hj
      have h5 := h3.mono ev.evo Bk Bk' (B.calls j clj hj).1 fun x hx => hl hj x (List.mem_append_right _ hx)
      have h6 := fun t ht => (h4 t ht).mono ev Bk Bk' fun x hx => hl hj x (List.mem_append_left _ (List.mem_flatMap.2 ⟨t, ht, hx⟩))
      rcases after_bh (c := c) (i := i) clj cl' a' new with h | h
      · rw [h] at h5 h6; exact ⟨h5.any, fun t ht => (h6 t ht).any⟩
      · rw [h]; exact ⟨h5, h6⟩
  cases CStep.of h with
  | none h => exact C
  | task cl t ts a' new hi ht e =>
    obtain ⟨h3, h4⟩ := C i cl hi
    have I : HInv c.a.b (ataskT t ++ (ts.flatMap ataskT ++ (pcT cl.pc ++ c.rest i))) := by
      refine (B.heap.perm (Conf.T_perm hi)).count fun t ht' => ?_
      simp only [callT, ht, List.flatMap_cons, List.append_assoc]
    refine others (cl' := { cl with tasks := new ++ ts }) hi rfl rfl rfl
      (h3.mono ev.evo Bk Bk' (B.calls i cl hi).1 fun x hx => hl hi x (List.mem_append_right _ hx)) fun t' ht' => ?_
    rcases List.mem_append.1 ht' with ht' | ht'
    · exact cov_task I B.par Bk' ev.evo ((B.calls i cl hi).2 t (by simp [ht])) e t' ht'
    · exact (h4 t' (by simp [ht, ht'])).mono ev Bk Bk' fun x hx => hl hi x
        (List.mem_append_left _ (List.mem_flatMap.2 ⟨t', by simp [ht, ht'], hx⟩))
  | pc cl a' n hi ht e =>
    obtain ⟨h3, h4⟩ := C i cl hi
    have I : HInv c.a.b (pcT cl.pc ++ c.rest i) := by
      refine (B.heap.perm (Conf.T_perm hi)).count fun t ht' => ?_
      simp only [callT, ht, List.flatMap_nil, List.nil_append]
    obtain ⟨h5, h6⟩ := cov_pc I B.par B'.par (B.calls i cl hi).1 (F.calls i cl hi).1 h3 Bk' ev.evo (.of e)
    exact others (cl' := { cl with pc := n.pc, tasks := n.tasks }) hi rfl rfl rfl h5 h6

theorem Conf.CovI.start {c' : Conf α} {op : Op α} (C : c.CovI) (h : c.start op = some c') : c'.CovI := by
  have ea := (Conf.start_T h).2
  have hs := SStep.of h
  intro j cl hj
  rw [ea]
  rcases start_call hs hj with h | ⟨hjl, hcl, _, h⟩
  · obtain ⟨h1, h2⟩ := C j cl h
    cases hf : cl.fin with
    | true => obtain ⟨r, h3, h4⟩ := fin_pc hf; rw [h3, h4]; exact ⟨trivial, by simp⟩
    | false =>
      rcases start_bh hs h hf with h3 | h3
      · rw [h3] at h1 h2; exact ⟨h1.any, fun t ht => (h2 t ht).any⟩
      · rw [h3]; exact ⟨h1, h2⟩
  · rcases h with ⟨_, hp, ht, _⟩ | ⟨_, hp, ht, _⟩ | ⟨k, d, g, hk, _, _, ht, hp⟩ | ⟨k, d, g, b, hk, _, _, ht, hp⟩ |
      ⟨k, d, g, hk, _, _, _, hp⟩ | ⟨k, d, g, b, hk, _, _, _, _, hp, ht⟩ | ⟨k, r, b, hk, _, _, _, hp⟩
    · rw [hp, ht]; exact ⟨trivial, by simp⟩
    · rw [hp, ht]; exact ⟨trivial, by simp⟩
    · rw [ht]
      rcases hp with ⟨_, hp⟩ | ⟨s, _, hp⟩ | ⟨_, hp⟩ <;> rw [hp] <;> exact ⟨trivial, by simp⟩
    · rw [ht]
      rcases hp with ⟨_, hp⟩ | ⟨h1, hp⟩
      · rw [hp]; exact ⟨trivial, by simp⟩
      · have h2 := start_on hs (hjl ▸ hj) (.inl h1)
        have h3 : cl.upOn = d := by
          simp only [Call.upOn, hcl, h1, Op.isUpgrade, if_true, h2, Conf.node, hk]
        rw [hp]; exact ⟨h3, by simp⟩
    · rcases hp with ⟨_, hp, ht⟩ | ⟨_, hp, ht⟩ | ⟨_, hp, ht⟩ <;> rw [hp, ht]
      · exact ⟨trivial, by simp⟩
      · exact ⟨trivial, by simp⟩
      · exact ⟨trivial, fun t ht => by simp only [List.mem_singleton] at ht; subst ht; trivial⟩
    · rw [hp, ht]; exact ⟨trivial, by simp⟩
    · rcases hp with ⟨_, hp, ht⟩ | ⟨_, _, hp, ht⟩ | ⟨_, _, hp, ht⟩ | ⟨_, _, _, hp, ht⟩ | ⟨_, hp, ht⟩ <;> rw [hp, ht]
      · exact ⟨trivial, by simp⟩
      · exact ⟨trivial, by simp⟩
      · exact ⟨trivial, by simp⟩
      · exact ⟨trivial, by simp⟩
      · exact ⟨trivial, fun t ht => by simp only [List.mem_singleton] at ht; subst ht; trivial⟩

theorem Conf.CovI.write {c' : Conf α} {e : Ent} {j : Nat} {x : α} (C : c.CovI) (h : c.write e j x = .ok c') : c'.CovI := by
  rcases Conf.write_cases h with rfl | ⟨b, i0, rfl⟩
  · exact C
  · intro i cl hi
    obtain ⟨h1, h2⟩ := C i cl hi
    refine ⟨?_, fun t ht => ?_⟩
    · have hb : Call.bh cl { c with a := c.a.withB (c.a.b.setSlot b i0 (.live x)) } = cl.bh c := rfl
      rw [hb]
      revert h1
      generalize cl.pc = pc
      intro h1
      cases pc <;> exact h1
    · have := h2 t ht
      cases t with
      | base t => cases t <;> exact this
      | _ => trivial

theorem Conf.CovI.init (zst : Bool) : (Conf.init (α := α) zst).CovI := by intro i cl hi; simp [Conf.init] at hi

end
end Verif.Arc
