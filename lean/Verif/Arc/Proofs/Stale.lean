import Verif.Arc.Stale
import Verif.Arc.Proofs.Unwind3
/-!
# Loads of former values keep all invariants
-/

namespace Verif.Arc
open Verif.Spec (Side Slot Family Rng End)
open Verif.Rc
variable {α : Type}

theorem GEvo.trans {a b c : Arena α} (B : Base a.b.sk) (B' : Base b.b.sk) (B'' : Base c.b.sk) (h1 : GEvo a b) (h2 : GEvo b c) : GEvo a c where
  evo := .trans B B' B'' h1.evo h2.evo
  ng := Nat.le_trans h1.ng h2.ng
  nbox := Nat.le_trans h1.nbox h2.nbox
  gOf g hg := (h2.gOf g (Nat.lt_of_lt_of_le hg h1.ng)).trans (h1.gOf g hg)
  tgt b hb := (h2.tgt b (Nat.lt_of_lt_of_le hb h1.nbox)).trans (h1.tgt b hb)
  dead g hg h := h2.dead g (Nat.lt_of_lt_of_le hg h1.ng) (h1.dead g hg h)

theorem getData_ok {h : Heap α} {x : Nat} {v : DataV} (e : h.getData x = .ok v) : h.sk.node x = some (.data v) := by
  simp only [Heap.getData] at e
  split at e
  · next hv => cases e; exact hv
  · cases e

section
variable {c c' c0 : Conf α} {i : Nat} {cl : Call α} {pc pc' : Pc α} {o : Obs}

/-- The program points before and after a load that found a former value. -/
inductive Found (a0 : Arena α) : Pc α → Obs → Pc α → Prop
  | csNew (d s v) (h : a0.b.sk.node d = some (.data v)) (hs : ¬ sameNode v.len s = true) : Found a0 (.cs d s) (.kid none) (.csNew d s)
  | csInc (d s v c) (h : a0.b.sk.node d = some (.data v)) (hk : v.kids s = some c) : Found a0 (.cs d s) (.kid (some c)) (.csInc c)
  | gLoad (x fs y v) (h : a0.b.sk.node x = some (.data v)) : Found a0 (.gLoad x fs y) (.box (a0.box x)) (.gTry x (a0.box x) none fs y)
  | gCas (x b og fs y v) (h : a0.b.sk.node x = some (.data v)) (hb : a0.box x ≠ b) :
      Found a0 (.gCas x b og fs y) (.box (a0.box x)) (.gTry x (a0.box x) og fs y)
  | gm1 (d g n) (hn : n = 1) : Found a0 (.gm1 d g) (.count n) (.gm2 d g)
  | gm1no (d g n) (hn : n ≠ 1) : Found a0 (.gm1 d g) (.count n) (.gmOpenD d g false)
  | gm3 (d g n) (hn : n ≠ 1) : Found a0 (.gm3 d g) (.count n) (.gmOpenC d g false)
  | gm4 (d g n) (hn : n ≠ 1) : Found a0 (.gm4 d g) (.count n) (.gmOpenC d g false)
  | im1 (d g n) (hn : n ≠ 1) : Found a0 (.im1 d g) (.count n) (.imOpen d g)

theorem Found.of {a0 : Arena α} (h0 : a0.holds pc = some o) (hs : pc.stale o = true) (hf : pc.found o = some pc') : Found a0 pc o pc' := by
  cases pc with
  | cs d s =>
    simp only [Arena.holds] at h0
    split at h0
    · next v hv =>
      split at h0
      · cases h0
      · next hn =>
        cases h0
        cases hk : v.kids s with
        | none => rw [hk] at hf; cases hf; exact .csNew d s v (getData_ok hv) hn
        | some k => rw [hk] at hf; cases hf; exact .csInc d s v k (getData_ok hv) hk
    · cases h0
  | gLoad x fs y =>
    simp only [Arena.holds] at h0
    split at h0
    · next v hv => cases h0; cases hf; exact .gLoad x fs y v (getData_ok hv)
    · cases h0
  | gCas x b og fs y =>
    simp only [Arena.holds] at h0
    split at h0
    · next v hv =>
      cases h0
      simp only [Pc.found] at hf
      split at hf
      · cases hf
      · next hb => cases hf; exact .gCas x b og fs y v (getData_ok hv) hb
    · cases h0
  | gm1 d g =>
    cases o with
    | count n =>
      simp only [Pc.found] at hf
      split at hf <;> cases hf
      · next h => exact .gm1 d g n h
      · next h => exact .gm1no d g n h
    | _ => cases hf
  | gm3 d g =>
    cases o with
    | count n =>
      have hn : n ≠ 1 := by simpa [Pc.stale] using hs
      simp only [Pc.found, if_neg hn] at hf
      cases hf; exact .gm3 d g n hn
    | _ => cases hf
  | gm4 d g =>
    cases o with
    | count n =>
      have hn : n ≠ 1 := by simpa [Pc.stale] using hs
      have : (n == 1) = false := by simpa using hn
      simp only [Pc.found, this] at hf
      cases hf; exact .gm4 d g n hn
    | _ => cases hf
  | im1 d g =>
    cases o with
    | count n =>
      have hn : n ≠ 1 := by simpa [Pc.stale] using hs
      simp only [Pc.found, if_neg hn] at hf
      cases hf; exact .im1 d g n hn
    | _ => cases hf
  | _ => cases h0

/-- A load of a former value, in full. -/
structure Loaded (c c' : Conf α) (i : Nat) (cl : Call α) (a0 : Arena α) (o : Obs) (pc' : Pc α) : Prop where
  call : c.calls[i]? = some cl
  tasks : cl.tasks = []
  found : Found a0 cl.pc o pc'
  eq : c' = { c with calls := c.calls.set i { cl with pc := pc' } }

theorem Loaded.of (hi : c.atPc i = some pc) (h0 : c0.a.holds pc = some o) (hs : pc.stale o = true) (e : c.load i o = some c') :
    ∃ cl pc', Loaded c c' i cl c0.a o pc' := by
  simp only [Conf.atPc] at hi
  simp only [Conf.load] at e
  split at hi
  · next cl hc =>
    split at hi
    · next ht =>
      cases hi
      simp only [hc, ht, if_true] at e
      split at e
      · next pc' hf => cases e; exact ⟨cl, pc', hc, List.isEmpty_iff.1 ht, .of h0 hs hf, rfl⟩
      · cases e
    · cases hi
  · cases hi

section
variable {a0 : Arena α}

theorem Found.T (f : Found a0 pc o pc') : pcT pc' = pcT pc := by cases f <;> rfl

theorem Found.cL (f : Found a0 pc o pc') : cL pc' = cL pc := by cases f <;> rfl

theorem Found.dL (f : Found a0 pc o pc') : dL pc' = dL pc := by cases f <;> rfl

theorem Found.past (f : Found a0 pc o pc') : past pc' ↔ past pc := by cases f <;> exact Iff.rfl

theorem Found.mid (f : Found a0 pc o pc') {b : Bool} {d g : Nat} (h : midP b pc' d g) : False := by
  rcases h with ⟨_, h⟩ | h <;> subst h <;> cases f

theorem Found.win (f : Found a0 pc o pc') {b : Bool} {d : Nat} (h : d ∈ winL b pc') : False := by
  cases f <;> cases h

theorem Found.notDone (f : Found a0 pc o pc') : pc.isDone = false ∧ pc'.isDone = false := by cases f <;> exact ⟨rfl, rfl⟩

theorem Loaded.calls (p : Loaded c c' i cl a0 o pc') {j : Nat} {clj : Call α} (hj : c'.calls[j]? = some clj) :
    (j = i ∧ clj = { cl with pc := pc' }) ∨ (j ≠ i ∧ c.calls[j]? = some clj) := by
  have hlen := (List.getElem?_eq_some_iff.1 p.call).1
  have hj : (c.calls.set i { cl with pc := pc' })[j]? = some clj := by rw [p.eq] at hj; exact hj
  by_cases hij : j = i
  · subst hij
    rw [List.getElem?_set_self hlen] at hj
    exact .inl ⟨rfl, (Option.some.inj hj).symm⟩
  · rw [List.getElem?_set_ne (fun e => hij e.symm)] at hj
    exact .inr ⟨hij, hj⟩

/-- The calls are the same, except for where they are. -/
theorem Loaded.same (p : Loaded c c' i cl a0 o pc') {j : Nat} {clj : Call α} (hj : c'.calls[j]? = some clj) : ∃ clo, c.calls[j]? = some clo ∧
    clj.op = clo.op ∧ clj.on = clo.on ∧ clj.borrow = clo.borrow ∧ clj.fin = clo.fin ∧ clj.upOn = clo.upOn ∧ (past clj.pc ↔ past clo.pc) := by
  rcases p.calls hj with ⟨rfl, rfl⟩ | ⟨_, hj⟩
  · have hn := p.found.notDone
    exact ⟨cl, p.call, rfl, rfl, rfl, by simp [Call.fin, hn], rfl, p.found.past⟩
  · exact ⟨clj, hj, rfl, rfl, rfl, rfl, rfl, Iff.rfl⟩

theorem Loaded.flat {β : Type} (p : Loaded c c' i cl a0 o pc') (f : Call α → List β) (h : f { cl with pc := pc' } = f cl) :
    c'.calls.flatMap f = c.calls.flatMap f := by
  rw [p.eq]
  simp only [set_split p.call]
  conv => rhs; rw [list_split p.call]
  simp only [List.flatMap_append, List.flatMap_cons, h]

theorem Loaded.T (p : Loaded c c' i cl a0 o pc') : c'.T = c.T := by
  have : c'.hs = c.hs := by rw [p.eq]
  simp only [Conf.T, this]
  rw [p.flat callT (by simp only [callT, p.found.T])]

theorem Loaded.a (p : Loaded c c' i cl a0 o pc') : c'.a = c.a := by rw [p.eq]

theorem Loaded.bh (p : Loaded c c' i cl a0 o pc') (clj : Call α) : clj.bh c' = clj.bh c := by rw [p.eq]; rfl

theorem Loaded.get (p : Loaded c c' i cl a0 o pc') (k : Nat) : c'.get k = c.get k := by rw [p.eq]; rfl

theorem Conf.BI.load (B : c.BI) (p : Loaded c c' i cl a0 o pc') (ev : AEvo a0 c.a) : c'.BI := by
  refine ⟨by rw [p.a, p.T]; exact B.heap, ?_, by rw [p.a]; exact B.par, fun k e hk => ?_, fun j clj hj => ?_⟩
  · refine Arc.GI.congr B.gi (by rw [p.a]) (by rw [p.a]) (by rw [p.a]) (by rw [p.a]) (fun g => by rw [p.T]) (fun g => by rw [p.T])
      (fun g => by rw [p.flat (fun cl => Arc.cL cl.pc) p.found.cL]) (fun g => by rw [p.flat (fun cl => Arc.dL cl.pc) p.found.dL])
  · rw [p.get] at hk; rw [p.a]; exact B.ents k e hk
  · rw [p.bh, p.a]
    rcases p.calls hj with ⟨rfl, rfl⟩ | ⟨_, hj⟩
    · obtain ⟨h1, h2⟩ := B.calls _ cl p.call
      refine ⟨?_, h2⟩
      show pcOK c.a (cl.bh c) pc'
      have live : ∀ d g, cl.bh c = some (.strong d g) → ∃ n, c.a.b.sk.node d = some n := by
        intro d g hb
        obtain ⟨k, b, _, hk⟩ := Conf.bh_get hb
        exact B.heap.live (mem_aS (t := .ref d) (Conf.get_tok' hk (by simp [entT])) (by simp))
      have f := p.found
      generalize hpc : cl.pc = q at f h1
      cases f with
      | csNew d s v h hs =>
        obtain ⟨g, hg⟩ := h1
        obtain ⟨v', h3, _, _, h4, _⟩ := ev.evo.keep h (live d g hg)
        exact ⟨g, v', hg, h3, by rw [h4]; exact hs⟩
      | csInc d s v k h hk =>
        obtain ⟨g, hg⟩ := h1
        exact KidOf.mono ev ⟨d, g, s, v, hg, h, hk⟩ live
      | _ => exact h1
    · exact B.calls j clj hj

theorem Conf.GFI.load (F : c.GFI) (p : Loaded c c' i cl a0 o pc') (B0 : Base a0.b.sk) (F0 : GF a0) (ev : GEvo a0 c.a) : c'.GFI := by
  refine ⟨by rw [p.a]; exact F.gf, fun k e hk => ?_, fun j clj hj => ?_⟩
  · rw [p.get] at hk; rw [p.a]; exact F.ents k e hk
  · rw [p.a]
    rcases p.calls hj with ⟨rfl, rfl⟩ | ⟨_, hj⟩
    · obtain ⟨h1, h2⟩ := F.calls _ cl p.call
      refine ⟨?_, h2⟩
      show pcG c.a pc'
      have box : ∀ {x : Nat} {v : DataV}, a0.b.sk.node x = some (.data v) → BoxAt c.a (a0.box x) x := fun h =>
        (F0.box _ (B0.lt h) (B0.kinds _ _ h)).mono ev
      have f := p.found
      generalize hpc : cl.pc = q at f h1
      cases f with
      | gLoad x fs y v h => exact ⟨box h, h1⟩
      | gCas x b og fs y v h hb => exact ⟨box h, h1.2.2.2⟩
      | csNew => trivial
      | csInc => trivial
      | _ => exact h1
    · exact F.calls j clj hj

theorem Conf.CovI.load (C : c.CovI) (p : Loaded c c' i cl a0 o pc') : c'.CovI := by
  intro j clj hj
  rw [p.bh, p.a]
  rcases p.calls hj with ⟨rfl, rfl⟩ | ⟨_, hj⟩
  · obtain ⟨h1, _⟩ := C _ cl p.call
    refine ⟨?_, fun t ht => by have : t ∈ cl.tasks := ht; rw [p.tasks] at this; cases this⟩
    show pcC c.a (cl.bh c) cl.upOn pc'
    have f := p.found
    generalize hpc : cl.pc = q at f h1
    cases f <;> first | exact h1 | trivial
  · exact C j clj hj

theorem Conf.Clear.load {b : Bool} (L : c.Clear b) (p : Loaded c c' i cl a0 o pc') : c'.Clear b := by
  refine ⟨fun j clj hj => ?_, fun j clj d hj hd => ?_, fun i1 cl1 u j1 clj1 d hi1 hf1 hu hj1 hfj hd hup => ?_, fun i1 cl1 u k d g hi1 hf1 hu hb hk => ?_⟩
  · rw [p.a]
    rcases p.calls hj with ⟨rfl, rfl⟩ | ⟨_, hj⟩
    · have h1 := L.ops _ cl p.call
      have f := p.found
      simp only [opOK] at h1 ⊢
      generalize cl.pc = q at f h1
      cases f <;> first | exact h1 | trivial
    · exact L.ops j clj hj
  · obtain ⟨clo, h1, _, h2, _⟩ := p.same hj
    rw [p.a]; exact L.lt j clo d h1 (by rw [← h2]; exact hd)
  · obtain ⟨cl2, h1, _, _, _, h2, h3, _⟩ := p.same hi1
    obtain ⟨cl3, h4, h5, h6, _, h7, _⟩ := p.same hj1
    rw [p.a] at hup ⊢
    rw [h5]
    exact L.calls i1 cl2 u j1 cl3 d h1 (by rw [← h2]; exact hf1) (by rw [← h3]; exact hu) h4 (by rw [← h7]; exact hfj) (by rw [← h6]; exact hd) hup
  · obtain ⟨cl2, h1, _, _, _, h2, h3, _⟩ := p.same hi1
    rw [p.get] at hk
    rw [p.a]
    exact L.ents i1 cl2 u k d g h1 (by rw [← h2]; exact hf1) (by rw [← h3]; exact hu) hb hk

theorem Conf.PH.load {b : Bool} (H : c.PH b) (p : Loaded c c' i cl a0 o pc') : c'.PH b := by
  refine ⟨fun j clj d g hj hp => ?_, fun j clj d hj hd => ?_, fun hbt k d g hk => ?_, fun j clj k hj hb => ?_⟩
  · rw [p.a, p.T]
    rcases p.calls hj with ⟨rfl, rfl⟩ | ⟨_, hj⟩
    · exact (p.found.mid hp).elim
    · obtain ⟨h1, h2⟩ := H.mid j clj d g hj hp
      refine ⟨h1, fun j2 cl2 g' hj2 hb hpa => ?_⟩
      rw [p.bh] at hb
      obtain ⟨clo, h3, _, _, h4, _, _, h5⟩ := p.same hj2
      exact h2 j2 clo g' h3 (by rw [← hb]; simp only [Call.bh, h4]) (h5.1 hpa)
  · rw [p.a, p.T]
    rcases p.calls hj with ⟨rfl, rfl⟩ | ⟨_, hj⟩
    · exact (p.found.win hd).elim
    · exact H.win j clj d hj hd
  · rw [p.get] at hk; rw [p.a, p.T]
    exact H.ent hbt k d g hk
  · have hh : c'.hs = c.hs := by rw [p.eq]
    obtain ⟨clo, h1, _, _, h2, _⟩ := p.same hj
    rw [hh]
    simp only [p.get]
    exact H.bor j clo k h1 (by rw [← h2]; exact hb)

theorem Conf.NxtI.load (N : c.NxtI) (p : Loaded c c' i cl a0 o pc') : c'.NxtI := by
  intro j clj hj
  rcases p.calls hj with ⟨rfl, rfl⟩ | ⟨_, hj⟩
  · have f := p.found
    show nxtOp { cl with pc := pc' }
    simp only [nxtOp]
    generalize cl.pc = q at f
    cases f <;> trivial
  · exact N j clj hj

end

theorem Conf.IA.load {b b0 : Bool} (A : c.IA b) (A0 : c0.IA b0) (ev : GEvo c0.a c.a) (hi : c.atPc i = some pc) (h0 : c0.a.holds pc = some o)
    (hs : pc.stale o = true) (e : c.load i o = some c') : c'.IA b := by
  obtain ⟨cl, pc', p⟩ := Loaded.of hi h0 hs e
  exact ⟨A.bi.load p ev.evo, A.gf.load p A0.bi.heap.base A0.gf.gf ev, A.cov.load p, A.clear.load p, A.ph.load p⟩

end

section
variable {P : Rules α} {zst : Bool} {l : List (Conf α)} {c : Conf α}

theorem Conf.start_gevo {c' : Conf α} {op : Op α} (A : c.BI) (e : c.start op = some c') : GEvo c.a c'.a := by
  rw [(Conf.start_T e).2]; exact .refl A.heap.base

theorem Conf.write_gevo {c' : Conf α} {en : Ent} {j : Nat} {x : α} (A : c.BI) (e : c.write en j x = .ok c') : GEvo c.a c'.a := by
  rcases Conf.write_cases e with rfl | ⟨b, i, rfl⟩
  · exact .refl A.heap.base
  · exact ⟨⟨.of_eq A.heap.base rfl, fun _ _ => rfl⟩, Nat.le_refl _, Nat.le_refl _, fun _ _ => rfl, fun _ _ => rfl, fun _ _ h => h⟩

theorem Conf.panic_gevo {c' : Conf α} {i : Nat} (A : c.BI) (e : c.panic i = some c') : GEvo c.a c'.a := by
  obtain ⟨cl, r, ts, ts', us, s, p⟩ := Panicked.of A.heap e
  exact p.gevo A.heap.base

theorem Conf.load_gevo {c' : Conf α} {i : Nat} {o : Obs} (A : c.BI) (e : c.load i o = some c') : GEvo c.a c'.a := by
  have : c'.a = c.a := by
    simp only [Conf.load] at e
    repeat' split at e
    all_goals first | (cases e; done) | (cases e; rfl)
  rw [this]; exact .refl A.heap.base

/-- All invariants, and all former states lead here. -/
theorem Conf.SReach.all {b : Bool} (hP : ∀ l c op, Conf.SReach P zst l c → P c op → c.ok b op) (h : Conf.SReach P zst l c) :
    c.IA b ∧ ∀ c0 ∈ l, c0.IA b ∧ GEvo c0.a c.a := by
  have more : ∀ {l : List (Conf α)} {c c' : Conf α}, (c.IA b ∧ ∀ c0 ∈ l, c0.IA b ∧ GEvo c0.a c.a) → c'.IA b → GEvo c.a c'.a →
      c'.IA b ∧ ∀ c0 ∈ c :: l, c0.IA b ∧ GEvo c0.a c'.a := by
    rintro l c c' ⟨h1, h2⟩ h3 h4
    refine ⟨h3, fun c0 h0 => ?_⟩
    rcases List.mem_cons.1 h0 with rfl | h0
    · exact ⟨h1, h4⟩
    · obtain ⟨h5, h6⟩ := h2 c0 h0
      exact ⟨h5, h6.trans h5.bi.heap.base h1.bi.heap.base h3.bi.heap.base h4⟩
  induction h with
  | init => exact ⟨⟨.init zst, .init zst, .init zst, .init b zst, .init b zst⟩, by simp⟩
  | run _ i e ih =>
    obtain ⟨c2, e2, h2, h3⟩ := ih.1.step (i := i)
    rw [e] at e2; cases e2; exact more ih h2 h3
  | start h op hp e ih => exact more ih (ih.1.start e (hP _ _ op h hp)) (Conf.start_gevo ih.1.bi e)
  | write _ k en j x hk _ e ih => exact more ih (ih.1.write hk e) (Conf.write_gevo ih.1.bi e)
  | panic _ i e ih => exact more ih (ih.1.panic e) (Conf.panic_gevo ih.1.bi e)
  | load _ i pc o c0 h0 hi ho hs e ih =>
    obtain ⟨h1, h2⟩ := ih.2 c0 h0
    exact more ih (ih.1.load h1 h2 hi ho hs e) (Conf.load_gevo ih.1.bi e)

theorem Conf.SReach.IA (hP : SStrict P) (h : Conf.SReach P zst l c) : c.IA true := (h.all fun l c op => hP zst l c op).1

theorem Conf.SReach.IA' (hP : STame P) (h : Conf.SReach P zst l c) : c.IA false := (h.all fun l c op => hP zst l c op).1

theorem Conf.SReach.BI (hP : STame P) (h : Conf.SReach P zst l c) : c.BI := (h.IA' hP).bi

theorem Conf.SReach.nxtOp (hP : STame P) (h : Conf.SReach P zst l c) : c.NxtI := by
  induction h with
  | init => intro i cl hi; simp [Conf.init] at hi
  | run _ i e ih => exact ih.step e
  | start _ op hp e ih => exact ih.start e
  | write _ k en j x hk _ e ih => exact ih.write e
  | panic h i e ih => exact ih.panic (h.BI hP) e
  | load _ i pc o c0 h0 hi ho hs e ih =>
    obtain ⟨cl, pc', p⟩ := Loaded.of hi ho hs e
    exact ih.load p

end

theorem found_step {a : Arena α} {pc pc' : Pc α} {o : Obs} (ho : a.holds pc = some o) (hf : pc.found o = some pc') :
    pcStep a pc = .ok (a, { pc := pc' }) := by
  have hg : ∀ {g : Nat} {f : GuardV → Obs}, (a.guard g).map f = some o → ∃ v, a.getG g = .ok v := by
    intro g f h
    cases hv : a.guard g with
    | none => rw [hv] at h; cases h
    | some v => exact ⟨v, by simp only [Arena.getG, hv]⟩
  cases pc with
  | cs d s =>
    simp only [Arena.holds] at ho
    split at ho
    · next v hv =>
      split at ho
      · cases ho
      · next hn =>
        cases ho
        show (a.b.getData d >>= fun v => _) = _
        rw [hv]
        show (if sameNode v.len s = true then _ else _) = _
        rw [if_neg hn]
        cases hk : v.kids s <;> rw [hk] at hf <;> cases hf <;> rfl
    · cases ho
  | gLoad x fs y =>
    simp only [Arena.holds] at ho
    split at ho
    · next v hv => cases ho; cases hf; simp only [pcStep, hv]; rfl
    · cases ho
  | gCas x b og fs y =>
    simp only [Arena.holds] at ho
    split at ho
    · next v hv =>
      cases ho
      simp only [Pc.found] at hf
      split at hf
      · cases hf
      · next hb => cases hf; simp only [pcStep, hv, if_neg hb]; rfl
    · cases ho
  | gm1 d g =>
    obtain ⟨v, hv⟩ := hg ho
    simp only [Arena.holds, Option.map_eq_some_iff] at ho
    obtain ⟨_, _, rfl⟩ := ho
    simp only [Pc.found] at hf
    cases hf
    simp only [pcStep, hv]
    by_cases h : a.gW g = 1 <;> simp only [h, if_true, if_false] <;> rfl
  | gm3 d g =>
    obtain ⟨v, hv⟩ := hg ho
    simp only [Arena.holds, Option.map_eq_some_iff] at ho
    obtain ⟨_, _, rfl⟩ := ho
    simp only [Pc.found] at hf
    cases hf
    simp only [pcStep, hv]
    by_cases h : a.gS g = 1 <;> simp only [h, if_true, if_false] <;> rfl
  | im1 d g =>
    obtain ⟨v, hv⟩ := hg ho
    simp only [Arena.holds, Option.map_eq_some_iff] at ho
    obtain ⟨_, _, rfl⟩ := ho
    simp only [Pc.found] at hf
    cases hf
    simp only [pcStep, hv]
    by_cases h : a.gS g = 1 <;> simp only [h, if_true, if_false] <;> rfl
  | gm4 d g =>
    simp only [Arena.holds] at ho
    split at ho
    · next v hv => cases ho; cases hf; simp only [pcStep, hv]; rfl
    · cases ho
  | _ => cases ho

/-- A load that finds the latest value is an ordinary step. -/
theorem load_latest {c c' : Conf α} {i : Nat} {pc : Pc α} {o : Obs} (hi : c.atPc i = some pc) (ho : c.a.holds pc = some o)
    (e : c.load i o = some c') : c.step i = .ok c' := by
  simp only [Conf.atPc] at hi
  split at hi
  · next cl hc =>
    split at hi
    · next ht =>
      cases hi
      simp only [Conf.load, hc, ht, if_true] at e
      have ht' := List.isEmpty_iff.1 ht
      split at e
      · next pc' hf =>
        cases e
        have hs : pcStep c.a cl.pc = .ok (c.a, { pc := pc' }) := found_step ho hf
        simp only [Conf.step, hc, callStep, ht', hs]
        show Except.ok (Conf.mk c.a (c.hs ++ []) (c.calls.set i { cl with pc := pc', tasks := [], out := cl.out ++ [] })) = _
        rw [List.append_nil, List.append_nil, ← ht']
      · cases e
    · cases hi
  · cases hi

theorem load_calls {c c' : Conf α} {i : Nat} {o : Obs} (h : c.load i o = some c') {j : Nat} {clj : Call α} (hj : c'.calls[j]? = some clj) :
    ∃ cl, c.calls[j]? = some cl ∧ clj.op = cl.op := by
  simp only [Conf.load] at h
  split at h
  · next cl hi =>
    split at h
    · split at h
      · cases h
        by_cases hij : j = i
        · subst hij
          have hlen := (List.getElem?_eq_some_iff.1 hi).1
          simp only [List.getElem?_set_self hlen] at hj
          cases hj
          exact ⟨cl, hi, rfl⟩
        · simp only [List.getElem?_set_ne (fun e => hij e.symm)] at hj
          exact ⟨clj, hj, rfl⟩
      · cases h
    · cases h
  · cases h

theorem Conf.SReach.ops {Q : Op α → Prop} {zst : Bool} {l : List (Conf α)} {c : Conf α} (h : Conf.SReach (only Q) zst l c) : ∀ (i : Nat) cl, c.calls[i]? = some cl → Q cl.op := by
  induction h with
  | init => intro i cl hi; simp [Conf.init] at hi
  | run _ i e ih =>
    intro j clj hj
    obtain ⟨cl, h1, h2, _⟩ := step_calls e hj
    rw [h2]; exact ih j cl h1
  | start _ op hp e ih =>
    intro j clj hj
    rcases start_call (.of e) hj with h | ⟨_, h2, _, _⟩
    · exact ih j clj h
    · rw [h2]; exact hp
  | write _ k en j x hk _ e ih =>
    rcases Conf.write_cases e with rfl | ⟨b, i, rfl⟩
    · exact ih
    · exact ih
  | panic _ i e ih =>
    intro j clj hj
    obtain ⟨cl, h1, h2⟩ := panic_calls e hj
    rw [h2]; exact ih j cl h1
  | load _ i pc o c0 h0 hi ho hs e ih =>
    intro j clj hj
    obtain ⟨cl, h1, h2⟩ := load_calls e hj
    rw [h2]; exact ih j cl h1

/-- Programs that do not upgrade follow the rules. -/
theorem sstrict_noUpgrade {Q : Op α → Prop} (hQ : ∀ op, Q op → op.NoUpgrade) : SStrict (only Q) := by
  intro zst l c op hc hp
  have hu : ∀ q, c.busy Op.isUpgrade q = false := fun q => busy_of fun i cl hi _ => by
    have := hQ _ (hc.ops i cl hi)
    cases ho : cl.op <;> simp_all [Op.isUpgrade, Op.NoUpgrade]
  have := hQ op hp
  cases op <;> simp_all [Conf.strict, Op.NoUpgrade]

end Verif.Arc
