import Verif.Arc.Proofs.Base
/-!
# Every step of a call keeps what calls rely on
-/

namespace Verif.Arc
open Verif.Spec (Side Slot Family Rng End)
open Verif.Rc
variable {α : Type}

/-- What a step of a call leads to. -/
structure PcRes (a : Arena α) (bh : Option Handle) (T : List AT) (a' : Arena α) (n : Next α) : Prop where
  heap : HInv a'.b (n.tasks.flatMap ataskT ++ (pcT n.pc ++ (entsT n.push ++ T)))
  evo : AEvo a a'
  par : ParOK a'
  pc : pcOK a' bh n.pc
  tasks : ∀ t ∈ n.tasks, aplain t
  push : ∀ e ∈ n.push, entOK a' e.h

macro "cnt" : tactic => `(tactic|
  (intro t ht
   simp only [pcT, entsT, entT, ataskT, taskT, frT, fgT, List.flatMap_append, List.flatMap_cons, List.flatMap_nil, List.map_cons, List.map_nil,
     List.map_append, List.count_append, List.count_cons, List.count_nil, List.append_nil, List.nil_append, List.cons_append, count_gd ht,
     count_wk ht, gd_beq ht, wk_beq ht, Bool.false_eq_true, if_false]
   try omega))

theorem flatMap_guard (l : List Nat) : (l.map ATask.guard).flatMap ataskT = l.map .gd := by
  induction l with
  | nil => rfl
  | cons t ts ih => simp only [List.map_cons, List.flatMap_cons, ih]; rfl

section
variable {a : Arena α} {T : List AT} {bh : Option Handle}

theorem HInv.pos {h : Heap α} (I : HInv h T) {x : Nat} {n : Node} (hx : h.sk.node x = some n) : 0 < h.strong x :=
  (I.good.ledger.live x).1 (by rw [hx]; rfl)

theorem getG_of {g : Nat} {v : GuardV} (hv : a.guard g = some v) : a.getG g = .ok v := by simp only [Arena.getG, hv]

theorem Chain.congr {a a' : Arena α} (h1 : a'.b.sk = a.b.sk) (h2 : a'.par = a.par) :
    ∀ {fs : List GFrame} {x y : Nat}, Chain a x fs y → Chain a' x fs y := by
  intro fs
  induction fs with
  | nil => rintro x y ⟨e1, e2, e3⟩; exact ⟨e1, by rw [h1]; exact e2, by rw [h1]; exact e3⟩
  | cons f fs ih => rintro x y ⟨e1, e2, e3⟩; exact ⟨e1, by rw [h2]; exact e2, ih e3⟩

theorem pcOK.congr {a a' : Arena α} {pc : Pc α} (h : pcOK a bh pc) (h1 : a'.b.sk = a.b.sk) (h2 : a'.par = a.par) : pcOK a' bh pc := by
  cases pc with
  | gRet g fs y => obtain ⟨x, h⟩ := h; exact ⟨x, h.congr h1 h2⟩
  | gLoad | gTry | gPar | gCas => exact Chain.congr h1 h2 h
  | _ => simp only [pcOK, KidOf, ImOK, h1] at h ⊢ <;> exact h

/-- Only the guards change. -/
theorem PcRes.of_g {a' : Arena α} {n : Next α} (I : HInv a.b T) (P : ParOK a) (U : List AT) (e1 : a'.b = a.b) (e2 : a'.par = a.par)
    (hc : ∀ t : AT, t.heavy = true → (n.tasks.flatMap ataskT ++ (pcT n.pc ++ (entsT n.push ++ U))).count t = T.count t)
    (hp : pcOK a bh n.pc) (ht : ∀ t ∈ n.tasks, aplain t) (hn : ∀ e ∈ n.push, entOK a e.h) :
    PcRes a bh U a' n where
  heap := by rw [e1]; exact I.count hc
  evo := .eq I.base e1 e2
  par := P.eq e1 e2
  pc := hp.congr (by rw [e1]) e2
  tasks := ht
  push e he := by
    have := hn e he
    cases hh : e.h <;> simp only [hh, entOK] at this ⊢ <;> rw [e1] <;> exact this

/-- `Arc::clone` of a node. -/
theorem PcRes.inc {n : Next α} {x : Nat} (I : HInv a.b T) (P : ParOK a) (U : List AT) (hx : 0 < a.b.strong x)
    (hc : ∀ t : AT, t.heavy = true → (n.tasks.flatMap ataskT ++ (pcT n.pc ++ (entsT n.push ++ U))).count t = (.ref x :: T).count t)
    (hp : ∀ h' : Heap α, h'.sk = a.b.sk → pcOK (a.withB h') bh n.pc) (ht : ∀ t ∈ n.tasks, aplain t) (hn : n.push = []) :
    ∃ h', a.b.incS x = .ok h' ∧ PcRes a bh U (a.withB h') n := by
  obtain ⟨h', e, I', ek, es⟩ := I.incS hx
  obtain ⟨e1, e2⟩ := P.same (.of_eq I.base ek) (by rw [ek]) I'
  exact ⟨h', e, ⟨I'.count hc, e1, e2, hp h' ek, ht, by simp [hn]⟩⟩

theorem Chain.nil_withB {h' : Heap α} (hk : h'.sk = a.b.sk) {d : Nat} (h1 : a.b.sk.kind d = .data) (h2 : d < a.b.sk.next) :
    Chain (a.withB h') d [] d := ⟨rfl, by simp only [Arena.withB, hk]; exact h1, by simp only [Arena.withB, hk]; exact h2⟩

theorem kidsFg_num {h : Heap α} (I : HInv h T) {x : Nat} {v : DataV} (hx : h.sk.node x = some (.data v)) (b i : Nat) :
    ((kidsFg v).map (fgNum h.sk b i)).sum + owners (ownSpans v) b i = v.span.num b i := by
  rw [← v.own_kid b i]
  have key : ∀ s, (((v.kids s).toList.map Fg.kid).map (fgNum h.sk b i)).sum = owners (v.kidSpan s) b i := by
    intro s
    cases hk : v.kids s with
    | none => simp [DataV.kidSpan, hk]
    | some c =>
      obtain ⟨h1, h2, vc, h3⟩ := I.good.shape.dataKid x v s c hx hk
      have h4 := I.good.shape.vok hx
      have h5 := I.good.shape.vok h3
      rw [h2] at h5
      have h6 := (h4.kid I.good.shape.toAShape h5).1
      simp [DataV.kidSpan, hk, fgNum, h3, h6]
  simp only [kidsFg, List.map_append, List.sum_append, key, ownSpans]

theorem kids_refs (v : DataV) (t : AT) :
    ((kidsFg v).map fgT).count t = ((v.kids .L).toList.map AT.ref).count t + ((v.kids .R).toList.map AT.ref).count t := by
  simp only [kidsFg, List.map_append, List.map_map, List.count_append]; rfl

/-- Taking a node apart: what `forget_items` is then left with. -/
theorem base_kill {x : Nat} {v : DataV} {todo : List Fg} {r : Reg} {acc : List Span} {U : List AT} (hx : a.b.sk.node x = some (.data v))
    (h1 : a.b.strong x = 1) (I : HInv a.b (.ref x :: (todo.map fgT ++ U))) (P : ParOK a)
    (hr1 : 0 < r.len → r.alloc = none → a.b.sk.zst = true) (hr2 : ∀ c, .kid c ∈ todo → a.b.sk.kind c = .data)
    (hr3 : ∀ b i, owners acc b i + v.span.num b i + (todo.map (fgNum a.b.sk b i)).sum = r.span.num b i) :
    HInv (a.b.kill x) ((kidsFg v).map fgT ++ (.reg (bare' v) :: ((ownSpans v).map .own ++ (todo.map fgT ++ U)))) ∧
    AEvo a (a.withB (a.b.kill x)) ∧ ParOK (a.withB (a.b.kill x)) ∧
    ImOK (a.b.kill x).sk r (ownSpans v ++ acc) (kidsFg v ++ todo) := by
  have I' := I.kill hx h1
  obtain ⟨e1, e2⟩ := P.same (h' := a.b.kill x) (.of_shrink I.base (.kill _ x)) rfl I'
  refine ⟨I'.perm ?_, e1, e2, ?_, ?_, ?_⟩
  · rw [List.perm_iff_count]; intro t
    simp only [List.count_append, List.count_cons, kids_refs v t, ownSpans]; omega
  · exact hr1
  · intro c hc
    show a.b.sk.kind c = .data
    rcases List.mem_append.1 hc with hc | hc
    · have : ∃ s, v.kids s = some c := by
        simp only [kidsFg, List.mem_append, List.mem_map, Option.mem_toList, Fg.kid.injEq, exists_eq_right] at hc
        rcases hc with hc | hc
        · exact ⟨_, hc⟩
        · exact ⟨_, hc⟩
      obtain ⟨s, hs⟩ := this
      obtain ⟨_, _, vc, h3⟩ := I.good.shape.dataKid x v s c hx hs
      exact I.good.shape.kinds _ _ h3
    · exact hr2 c hc
  · intro b i
    have hne : ∀ c, .kid c ∈ kidsFg v ++ todo → c ≠ x := by
      rintro c hc rfl
      rcases List.mem_append.1 hc with hc | hc
      · simp only [kidsFg, List.mem_append, List.mem_map, Option.mem_toList, Fg.kid.injEq, exists_eq_right] at hc
        rcases hc with hc | hc
        · have := (I.good.shape.dataKid c v _ c hx hc).1; omega
        · have := (I.good.shape.dataKid c v _ c hx hc).1; omega
      · exact I.good.ledger.no_tok h1 (mem_aS (t := .ref c) (List.mem_append_left _ (List.mem_map.2 ⟨_, hc, rfl⟩)) (by simp))
    have hm : (kidsFg v ++ todo).map (fgNum (a.b.kill x).sk b i) = (kidsFg v ++ todo).map (fgNum a.b.sk b i) := by
      refine List.map_congr_left fun f hf => ?_
      cases f with
      | val w => rfl
      | kid c =>
        have : (a.b.kill x).sk.node c = a.b.sk.node c := upd_ne _ _ (hne c hf)
        simp only [fgNum, this]
    rw [hm, List.map_append, List.sum_append, owners_append]
    have := kidsFg_num I hx b i
    have := hr3 b i
    omega

theorem base_pc {pc : Pc α} (I : HInv a.b (pcT pc ++ T)) (P : ParOK a) (hp : pcOK a bh pc)
    (hg : ∀ g, .gd g ∈ pcT pc ++ T → ∃ v, a.guard g = some v ∧ a.gS g ≠ 0)
    (hw : ∀ g, .wk g ∈ pcT pc ++ T → a.gW g ≠ 0)
    (hb : ∀ h, bh = some h → entOK a h ∧ ∀ t ∈ entT ⟨h, false⟩, t ∈ T)
    (him : ∀ c todo g r acc, pc = .imFg (.kid c :: todo) g r acc → a.b.strong c = 1) :
    ∃ a' n, pcStep a pc = .ok (a', n) ∧ PcRes a bh T a' n := by
  have B := I.base
  -- the borrowed handle
  have hbd : ∀ d g, bh = some (.strong d g) → (∃ v, a.b.sk.node d = some (.data v)) ∧ (∃ v, a.guard g = some v ∧ a.gS g ≠ 0) ∧
      a.b.sk.kind d = .data ∧ d < a.b.sk.next := by
    intro d g e
    obtain ⟨h1, h2⟩ := hb _ e
    have hd : d ∈ aS (pcT pc ++ T) := mem_aS (t := .ref d) (List.mem_append_right _ (h2 _ (by simp [entT]))) (by simp)
    exact ⟨I.data hd h1, hg g (List.mem_append_right _ (h2 _ (by simp [entT]))), h1, I.lt hd⟩
  have href : ∀ d, .ref d ∈ pcT pc → d ∈ aS (pcT pc ++ T) := fun d hd => mem_aS (List.mem_append_left _ hd) (by simp)
  have hgd : ∀ g, .gd g ∈ pcT pc → ∃ v, a.guard g = some v ∧ a.gS g ≠ 0 := fun g h => hg g (List.mem_append_left _ h)
  have hch : ∀ {fs : List GFrame} {x y : Nat}, (∀ t ∈ .ref y :: frT fs, t ∈ pcT pc) → Chain a x fs y → ∃ v, a.b.sk.node x = some (.data v) :=
    fun hs h => I.data (href _ (hs _ h.held)) (h.data P).1
  cases pc with
  | done r =>
    refine ⟨a, _, rfl, ?_⟩
    exact .of_g I P T rfl rfl (by cnt) hp (by simp) (by simp)
  | new xs =>
    by_cases hl : xs.length = 0
    · obtain ⟨I1, e1, e2, e3⟩ := HInv.boxPlain (T := T) (h := a.b) I xs (.inl hl)
      rw [hl] at I1
      obtain ⟨e4, P1⟩ := P.same e1 e3 I1
      obtain ⟨a', e5, I2, e6, P2, k1, k2⟩ := base_root (a := a.withB (newBuf a.b xs).1) (T := T) I1 P1
      refine ⟨a', { pc := .gLoad (a.withB (newBuf a.b xs).1).b.sk.next [] (a.withB (newBuf a.b xs).1).b.sk.next }, ?_, ⟨I2.count (by cnt), e4.trans B I1.base I2.base e6, P2, ⟨rfl, k1, k2⟩, by simp, by simp⟩⟩
      simp only [pcStep]
      rw [if_pos hl]
      have : (newBuf a.b xs).2 = a.b.sk.nbuf := rfl
      simp only [this]
      rw [e5]
    · obtain ⟨I1, e1, e2, e3⟩ := HInv.boxAlloc (T := T) (h := a.b) I xs hl
      have hka : ((newBuf a.b xs).1.rcNew (.alloc a.b.sk.nbuf) ⟨0, []⟩).1.sk.kind a.b.sk.next = .alloc :=
        I1.good.shape.kinds _ _ ((I1.regs _ (List.mem_cons_self ..)).1 _ rfl)
      have e4 : AEvo a (a.withB ((newBuf a.b xs).1.rcNew (.alloc a.b.sk.nbuf) ⟨0, []⟩).1) := ⟨e1, fun _ _ => rfl⟩
      have P1 : ParOK (a.withB ((newBuf a.b xs).1.rcNew (.alloc a.b.sk.nbuf) ⟨0, []⟩).1) := by
        refine P.evo e4 (fun x h1 h2 => ?_) rfl fun y w s c h1 h2 => ?_
        · have h2' : x < ((newBuf a.b xs).1.rcNew (.alloc a.b.sk.nbuf) ⟨0, []⟩).1.sk.next := h2
          have : x = a.b.sk.next := by omega
          subst this
          show ((newBuf a.b xs).1.rcNew (.alloc a.b.sk.nbuf) ⟨0, []⟩).1.sk.kind a.b.sk.next ≠ _
          rw [hka]; exact fun h => by cases h
        · rcases e3 y _ h1 with rfl | h3
          · have h4 : ((newBuf a.b xs).1.rcNew (.alloc a.b.sk.nbuf) ⟨0, []⟩).1.sk.node a.b.sk.next = some (.data w) := h1
            have := I1.good.shape.kinds _ _ h4
            rw [hka] at this; cases this
          · obtain ⟨_, _, vc, h5⟩ := I.good.shape.dataKid y w s c h3 h2
            exact I.good.ledger.lt h5
      obtain ⟨a', e5, I2, e6, P2, k1, k2⟩ := base_root (T := T) (a := a.withB ((newBuf a.b xs).1.rcNew (.alloc a.b.sk.nbuf) ⟨0, []⟩).1) I1 P1
      refine ⟨a', { pc := .gLoad (a.withB ((newBuf a.b xs).1.rcNew (.alloc a.b.sk.nbuf) ⟨0, []⟩).1).b.sk.next [] (a.withB ((newBuf a.b xs).1.rcNew (.alloc a.b.sk.nbuf) ⟨0, []⟩).1).b.sk.next }, ?_, ⟨I2.count (by cnt), e4.trans B I1.base I2.base e6, P2, ⟨rfl, k1, k2⟩, by simp, by simp⟩⟩
      simp only [pcStep]
      rw [if_neg hl]
      have : (newBuf a.b xs).2 = a.b.sk.nbuf := rfl
      simp only [this]
      have : ((newBuf a.b xs).1.rcNew (.alloc a.b.sk.nbuf) ⟨0, []⟩).2 = a.b.sk.next := rfl
      rw [this, e5]
  | mutNew xs =>
    by_cases hl : xs.length = 0 ∨ a.b.sk.zst = true
    · obtain ⟨I1, e1, e2, e3⟩ := HInv.boxPlain (T := T) (h := a.b) I xs hl
      obtain ⟨e4, P1⟩ := P.same e1 e3 I1
      refine ⟨a.withB (newBuf a.b xs).1, { pc := .done .handle, push := [⟨.uniq ⟨a.b.sk.nbuf, 0, xs.length, none⟩, false⟩] }, ?_,
        ⟨I1.count (by cnt), e4, P1, trivial, by simp, by simp [entOK]⟩⟩
      have : mutFromBox a.b xs = ((newBuf a.b xs).1, ⟨a.b.sk.nbuf, 0, xs.length, none⟩) := by
        simp only [mutFromBox]
        exact if_pos hl
      simp only [pcStep, this]
    · have hl0 : xs.length ≠ 0 := fun h => hl (.inl h)
      obtain ⟨I1, e1, e2, e3⟩ := HInv.boxAlloc (T := T) (h := a.b) I xs hl0
      have hka : ((newBuf a.b xs).1.rcNew (.alloc a.b.sk.nbuf) ⟨0, []⟩).1.sk.kind a.b.sk.next = .alloc :=
        I1.good.shape.kinds _ _ ((I1.regs _ (List.mem_cons_self ..)).1 _ rfl)
      have e4 : AEvo a (a.withB ((newBuf a.b xs).1.rcNew (.alloc a.b.sk.nbuf) ⟨0, []⟩).1) := ⟨e1, fun _ _ => rfl⟩
      have P1 : ParOK (a.withB ((newBuf a.b xs).1.rcNew (.alloc a.b.sk.nbuf) ⟨0, []⟩).1) := by
        refine P.evo e4 (fun x h1 h2 => ?_) rfl fun y w s c h1 h2 => ?_
        · have h2' : x < ((newBuf a.b xs).1.rcNew (.alloc a.b.sk.nbuf) ⟨0, []⟩).1.sk.next := h2
          have : x = a.b.sk.next := by omega
          subst this
          show ((newBuf a.b xs).1.rcNew (.alloc a.b.sk.nbuf) ⟨0, []⟩).1.sk.kind a.b.sk.next ≠ _
          rw [hka]; exact fun h => by cases h
        · rcases e3 y _ h1 with rfl | h3
          · have h4 : ((newBuf a.b xs).1.rcNew (.alloc a.b.sk.nbuf) ⟨0, []⟩).1.sk.node a.b.sk.next = some (.data w) := h1
            have := I1.good.shape.kinds _ _ h4
            rw [hka] at this; cases this
          · obtain ⟨_, _, vc, h5⟩ := I.good.shape.dataKid y w s c h3 h2
            exact I.good.ledger.lt h5
      refine ⟨a.withB ((newBuf a.b xs).1.rcNew (.alloc a.b.sk.nbuf) ⟨0, []⟩).1,
        { pc := .done .handle, push := [⟨.uniq ⟨a.b.sk.nbuf, 0, xs.length, some a.b.sk.next⟩, false⟩] }, ?_,
        ⟨I1.count (by cnt), e4, P1, trivial, by simp, by simp [entOK]⟩⟩
      have : mutFromBox a.b xs = (((newBuf a.b xs).1.rcNew (.alloc a.b.sk.nbuf) ⟨0, []⟩).1, ⟨a.b.sk.nbuf, 0, xs.length, some a.b.sk.next⟩) := by
        simp only [mutFromBox]
        exact if_neg hl
      simp only [pcStep, this]
  | immut r =>
    obtain ⟨a', e5, I2, e6, P2, k1, k2⟩ := base_root (a := a) (T := T) I P
    refine ⟨a', { pc := .gLoad a.b.sk.next [] a.b.sk.next }, ?_, ⟨I2.count (by cnt), e6, P2, ⟨rfl, k1, k2⟩, by simp, by simp⟩⟩
    simp only [pcStep, e5]
  | split s r =>
    obtain ⟨h', r1, r2, e, I', ek, _⟩ := HInv.split (T := T) (r := r) I s
    obtain ⟨e1, e2⟩ := P.same (.of_eq B ek) (by rw [ek]) I'
    refine ⟨a.withB h', { pc := .done .handle, push := [⟨.uniq r1, false⟩, ⟨.uniq r2, false⟩] }, ?_,
      ⟨I'.count (by cnt), e1, e2, trivial, by simp, by simp [entOK]⟩⟩
    simp [pcStep, e, bind, Except.bind, pure, Except.pure]
  | nxt en r =>
    obtain ⟨h', o, r', ts, e, I', ek, hts, _⟩ := HInv.iterNext (T := T) (r := r) I en
    obtain ⟨e1, e2⟩ := P.same (.of_eq B ek) (by rw [ek]) I'
    obtain ⟨res, hres⟩ : ∃ res : Res α, res = (match o with | some x => .item x | none => .none) := ⟨_, rfl⟩
    refine ⟨a.withB h', { pc := .done res, tasks := ts.map .base, push := [⟨.uniq r', false⟩] }, ?_, ⟨I'.count ?_, e1, e2, trivial, ?_, by simp [entOK]⟩⟩
    · simp [pcStep, e, bind, Except.bind, pure, Except.pure]; cases o <;> exact hres ▸ rfl
    · intro t ht
      rw [flatMap_base]
      simp [pcT, entsT, entT]
    · intro t ht
      obtain ⟨t, h1, rfl⟩ := List.mem_map.1 ht
      obtain ⟨x, rfl, _⟩ := hts t h1; trivial
  | cut en n r =>
    by_cases hn : n ≤ r.len
    · have key : ∃ h' r1 r2, (match en with
          | .front => iterSplit a.b { r with len := n } { r with off := r.off + n, len := r.len - n }
          | .back => iterSplit a.b { r with off := r.off + n, len := r.len - n } { r with len := n }) = .ok (h', r1, r2) ∧
          HInv h' (.reg r1 :: .reg r2 :: T) ∧ h'.sk = a.b.sk := by
        cases en
        · obtain ⟨h', a1, a2, e, I', ek, _⟩ := HInv.cutF (T := T) (r := r) I hn; exact ⟨_, _, _, e, I', ek⟩
        · obtain ⟨h', a1, a2, e, I', ek, _⟩ := HInv.cutB (T := T) (r := r) I hn; exact ⟨_, _, _, e, I', ek⟩
      obtain ⟨h', r1, r2, e, I', ek⟩ := key
      obtain ⟨e1, e2⟩ := P.same (.of_eq B ek) (by rw [ek]) I'
      refine ⟨a.withB h', { pc := .done .handle, push := [⟨.uniq r1, false⟩, ⟨.uniq r2, false⟩] }, ?_,
        ⟨I'.count (by cnt), e1, e2, trivial, by simp, by simp [entOK]⟩⟩
      simp only [pcStep, if_pos hn]
      cases en <;> simp only at e <;> simp [e, bind, Except.bind, pure, Except.pure]
    · refine ⟨a, { pc := .done .panic, push := [⟨.uniq r, false⟩] }, ?_, .of_g I P T rfl rfl (by cnt) trivial (by simp) (by simp [entOK])⟩
      simp only [pcStep, if_neg hn]
  | cl1 d g =>
    have hp : bh = some (.strong d g) := hp
    obtain ⟨⟨v, hv⟩, _, _⟩ := hbd d g hp
    obtain ⟨h', e, R⟩ := PcRes.inc (bh := bh) (n := { pc := .cl2 d g }) I P T (I.pos hv) (by cnt) (fun _ _ => hp) (by simp) rfl
    exact ⟨_, _, by simp [pcStep, e, bind, Except.bind, pure, Except.pure], R⟩
  | cl2 d g =>
    have hp : bh = some (.strong d g) := hp
    obtain ⟨_, ⟨v, hv, h0⟩, hk, _⟩ := hbd d g hp
    refine ⟨{ a with gS := upd a.gS g (a.gS g + 1) }, { pc := .done .handle, push := [⟨.strong d g, false⟩] }, ?_,
      .of_g I P T rfl rfl (by cnt) trivial (by simp) (by simpa [entOK] using hk)⟩
    simp [pcStep, Arena.incG, h0, bind, Except.bind, pure, Except.pure]
  | wait d g s =>
    have hp : bh = some (.strong d g) := hp
    obtain ⟨_, ⟨v, hv, h0⟩, hk, _⟩ := hbd d g hp
    by_cases hc : v.cGate = true
    · refine ⟨a, { pc := .wait d g s }, by simp [pcStep, getG_of hv, hc, bind, Except.bind, pure, Except.pure], ?_⟩
      exact .of_g I P T rfl rfl (by cnt) hp (by simp) (by simp)
    · refine ⟨a, { pc := .cs d s }, by simp [pcStep, getG_of hv, hc, bind, Except.bind, pure, Except.pure], ?_⟩
      exact .of_g I P T rfl rfl (by cnt) ⟨g, hp⟩ (by simp) (by simp)
  | cs d s =>
    obtain ⟨g, hp⟩ := hp
    obtain ⟨⟨v, hv⟩, _, hk, hlt⟩ := hbd d g hp
    by_cases hs : sameNode v.len s = true
    · obtain ⟨h', e, R⟩ := PcRes.inc (bh := bh) (n := { pc := .gLoad d [] d }) I P T (I.pos hv) (by cnt)
        (fun _ ek => Chain.nil_withB ek hk hlt) (by simp) rfl
      exact ⟨_, _, by simp [pcStep, getData_ok hv, hs, e, bind, Except.bind, pure, Except.pure], R⟩
    · cases hkid : v.kids s with
      | some c =>
        refine ⟨a, { pc := .csInc c }, by simp [pcStep, getData_ok hv, hs, hkid, bind, Except.bind, pure, Except.pure], ?_⟩
        exact .of_g I P T rfl rfl (by cnt) ⟨d, g, s, v, hp, hv, hkid⟩ (by simp) (by simp)
      | none =>
        refine ⟨a, { pc := .csNew d s }, by simp [pcStep, getData_ok hv, hs, hkid, bind, Except.bind, pure, Except.pure], ?_⟩
        exact .of_g I P T rfl rfl (by cnt) ⟨g, v, hp, hv, hs⟩ (by simp) (by simp)
  | csInc c =>
    obtain ⟨d, g, s, v, hp, hv, hkid⟩ := hp
    obtain ⟨_, _, vc, h3⟩ := I.good.shape.dataKid d v s c hv hkid
    obtain ⟨h', e, R⟩ := PcRes.inc (bh := bh) (n := { pc := .gLoad c [] c }) I P T (I.pos h3) (by cnt)
        (fun _ ek => Chain.nil_withB ek (I.good.shape.kinds _ _ h3) (B.lt h3)) (by simp) rfl
    exact ⟨_, _, by simp [pcStep, e, bind, Except.bind, pure, Except.pure], R⟩
  | csNew d s =>
    obtain ⟨g, v, hp, hv, hs⟩ := hp
    have hpc : ∀ h' : Heap α, h'.sk = a.b.sk →
        pcOK (a.withB h') bh (.csCas d s ⟨v.buf, v.subOff s, v.subLen s, if v.subLen s = 0 then none else v.alloc⟩ : Pc α) :=
      fun h' ek => ⟨g, v, hp, by simp only [Arena.withB, ek]; exact hv, hs, rfl⟩
    cases hal : (if v.subLen s = 0 then none else v.alloc) with
    | none =>
      rw [hal] at hpc
      refine ⟨a, { pc := .csCas d s ⟨v.buf, v.subOff s, v.subLen s, none⟩ }, ?_,
        ⟨HInv.congr (T := T) I ?_ ?_ ?_, .refl B, P, hpc a.b rfl, by simp, by simp⟩⟩
      · simp [pcStep, getData_ok hv, hal, Heap.incSOpt, bind, Except.bind, pure, Except.pure, Arena.withB]
      · simp [pcT, entsT, bare]
      · intro b i; simp [pcT, entsT, bare, Reg.span, num_empty]
      · intro r hr
        simp only [pcT, entsT, List.flatMap_nil, List.nil_append, List.cons_append, List.mem_cons, AT.reg.injEq] at hr
        rcases hr with rfl | hr
        · exact .inr ⟨fun a ha => (by cases ha), fun h => absurd h (by simp [bare])⟩
        · exact .inl hr
    | some al =>
      rw [hal] at hpc
      have hv' : v.alloc = some al := by
        split at hal
        · cases hal
        · exact hal
      have hna := I.good.shape.dataAlloc d v al hv hv'
      obtain ⟨h', e, I', ek, es⟩ := HInv.incS (T := T) I (I.pos hna)
      obtain ⟨e1, e2⟩ := P.same (.of_eq B ek) (by rw [ek]) I'
      refine ⟨a.withB h', { pc := .csCas d s ⟨v.buf, v.subOff s, v.subLen s, some al⟩ }, ?_,
        ⟨HInv.congr I' ?_ ?_ ?_, e1, e2, hpc h' ek, by simp, by simp⟩⟩
      · simp [pcStep, getData_ok hv, hal, Heap.incSOpt, e, bind, Except.bind, pure, Except.pure]
      · simp [pcT, entsT, bare]
      · intro b i; simp [pcT, entsT, bare, Reg.span, num_empty]
      · intro r hr
        simp only [pcT, entsT, List.flatMap_nil, List.nil_append, List.cons_append, List.mem_cons, AT.reg.injEq] at hr
        rcases hr with rfl | hr
        · refine .inr ⟨fun a ha => ?_, fun h => absurd h (by simp [bare])⟩
          cases ha
          show h'.sk.node al = _
          rw [ek]; exact hna
        · exact .inl (List.mem_cons_of_mem _ hr)
  | csCas d s r =>
    obtain ⟨g, v, hp, hv, hs, hr⟩ := hp
    obtain ⟨_, _, hkd, hlt⟩ := hbd d g hp
    cases hkid : v.kids s with
    | some c =>
      refine ⟨a, { pc := .csLose c r }, by simp [pcStep, getData_ok hv, hkid, bind, Except.bind, pure, Except.pure],
          .of_g I P T rfl rfl (by cnt) ⟨d, g, s, v, hp, hv, hkid⟩ (by simp) (by simp)⟩
    | none =>
      have I0 : HInv a.b (.reg (bare' (v.kid s)) :: T) := by subst hr; exact I
      obtain ⟨h', e, I', ev, es, en, el, ek, ed, eo⟩ := I0.child hv hkid
      have hkd' : h'.sk.kind a.b.sk.next = .data := I'.good.shape.kinds _ _ ek
      refine ⟨{ a with b := h', par := upd a.par a.b.sk.next (some d) }.newBox a.b.sk.next none,
        { pc := .gLoad a.b.sk.next [] a.b.sk.next }, ?_, ⟨I'.count (by cnt), ?_, ?_, ?_, by simp, by simp⟩⟩
      · subst hr
        simp only [pcStep, getData_ok hv, bind, Except.bind, hkid]
        have h2 : (a.b.rcNew (.data ⟨v.buf, v.subOff s, v.subLen s, if v.subLen s = 0 then none else v.alloc, noKids⟩)
          ((a.b.sk.lab d).child s)).2 = a.b.sk.next := rfl
        rw [h2]
        cases hi : ((a.b.rcNew (.data ⟨v.buf, v.subOff s, v.subLen s, if v.subLen s = 0 then none else v.alloc, noKids⟩)
          ((a.b.sk.lab d).child s)).1.incS a.b.sk.next) with
        | error u => simp only [DataV.kid, hi, Except.map] at e; cases e
        | ok h1 =>
          simp only [DataV.kid, hi, Except.map, Except.ok.injEq] at e
          simp only [e, pure, Except.pure]
      · exact ⟨ev, fun x hx => upd_ne _ _ (by omega)⟩
      · constructor
        · intro x p hx
          have hx' : upd a.par a.b.sk.next (some d) x = some p := hx
          by_cases hne : x = a.b.sk.next
          · subst hne
            rw [upd_same] at hx'; cases hx'
            refine ⟨?_, ?_, ?_, s, ?_⟩
            · show a.b.sk.next < h'.sk.next; omega
            · show d < h'.sk.next; omega
            · show h'.sk.kind d = _; rw [ev.kind d hlt]; exact hkd
            · show h'.sk.lab a.b.sk.next = (h'.sk.lab d).child s; rw [el, ev.lab d hlt]
          · rw [upd_ne _ _ hne] at hx'
            obtain ⟨h1, h2, h3, s, h4⟩ := P.par x p hx'
            refine ⟨?_, ?_, ?_, s, ?_⟩
            · show x < h'.sk.next; omega
            · show p < h'.sk.next; omega
            · show h'.sk.kind p = _; rw [ev.kind p h2]; exact h3
            · show h'.sk.lab x = (h'.sk.lab p).child s; rw [ev.lab x h1, ev.lab p h2]; exact h4
        · intro y w s2 c hy hc
          show upd a.par a.b.sk.next (some d) c = some y
          by_cases hcn : c = a.b.sk.next
          · subst hcn
            rw [upd_same]
            obtain ⟨h5, h6, _⟩ := I'.good.shape.dataKid y w s2 _ hy hc
            have hy' : h'.sk.lab y = h'.sk.lab d := by
              rw [el] at h6
              have := Lab.child_inj h6
              rw [ev.lab d hlt]; exact this.1.symm
            rw [I'.good.shape.dataUniq y w d _ hy ed hy']
          · have hcl : c < a.b.sk.next := by
              obtain ⟨_, _, vc, h5⟩ := I'.good.shape.dataKid y w s2 c hy hc
              have := I'.good.ledger.lt h5
              omega
            obtain ⟨w0, h7, h8⟩ := ev.link y w s2 c hy hc hcl
            rw [upd_ne _ _ hcn]; exact P.kid y w0 s2 c h7 h8
        · intro x h1 h2 h3
          have h1' : x < h'.sk.next := h1
          have h2' : h'.sk.kind x = .data := h2
          have h3' : upd a.par a.b.sk.next (some d) x = none := h3
          show (h'.sk.lab x).path = []
          have hx : x ≠ a.b.sk.next := by rintro rfl; rw [upd_same] at h3'; cases h3'
          rw [upd_ne _ _ hx] at h3'
          have hlt : x < a.b.sk.next := by omega
          rw [ev.kind x hlt] at h2'
          rw [ev.lab x hlt]; exact P.root x hlt h2' h3'
      · refine ⟨rfl, hkd', ?_⟩
        show a.b.sk.next < h'.sk.next; omega
  | csLose c r =>
    obtain ⟨d, g, s, v, hp, hv, hkid⟩ := hp
    obtain ⟨_, _, vc, h3⟩ := I.good.shape.dataKid d v s c hv hkid
    obtain ⟨h', e, R⟩ := PcRes.inc (bh := bh) (n := { pc := .gLoad c [] c, tasks := [.base (.dropReg { r with len := 0 })] }) I P T
        (I.pos h3) (by simp only [bare, pcT]; cnt)
        (fun _ ek => Chain.nil_withB ek (I.good.shape.kinds _ _ h3) (B.lt h3)) (by simp [aplain, plain]) rfl
    exact ⟨_, _, by simp [pcStep, e, bind, Except.bind, pure, Except.pure], R⟩
  | gLoad x fs y =>
    have hp : Chain a x fs y := hp
    obtain ⟨v, hv⟩ := hch (fun _ h => h) hp
    refine ⟨a, { pc := .gTry x (a.box x) none fs y }, by simp [pcStep, getData_ok hv, bind, Except.bind, pure, Except.pure], ?_⟩
    exact .of_g I P T rfl rfl (by cnt) hp (by simp) (by simp)
  | gTry x b pend fs y =>
    have hp : Chain a x fs y := hp
    have hpar : PcRes a bh T a { pc := .gPar x b fs y, tasks := pend.toList.map .guard } :=
      .of_g I P T rfl rfl (by rw [flatMap_guard]; cnt) hp (by
        intro t ht; obtain ⟨t, _, rfl⟩ := List.mem_map.1 ht; trivial) (by simp)
    simp only [pcStep]
    cases ht : a.tgt b with
    | none => exact ⟨_, _, rfl, hpar⟩
    | some g =>
      by_cases h0 : a.gS g = 0
      · simp only [h0, if_true]
        exact ⟨_, _, rfl, hpar⟩
      · simp only [h0, if_false]
        refine ⟨_, _, rfl, ?_⟩
        exact .of_g I P T rfl rfl (by rw [flatMap_guard]; cnt) ⟨x, hp⟩ (by
          intro t ht; obtain ⟨t, _, rfl⟩ := List.mem_map.1 ht; trivial) (by simp)
  | gPar x b fs y =>
    have hp : Chain a x fs y := hp
    obtain ⟨v, hv⟩ := hch (fun _ h => h) hp
    cases hpar : a.par x with
    | none =>
      refine ⟨a, { pc := .gCas x b none fs y }, by simp [pcStep, getData_ok hv, hpar, bind, Except.bind, pure, Except.pure], ?_⟩
      exact .of_g I P T rfl rfl (by cnt) hp (by simp) (by simp)
    | some p =>
      by_cases h0 : a.b.strong p = 0
      · refine ⟨a, { pc := .gCas x b none fs y }, by simp [pcStep, getData_ok hv, hpar, h0, bind, Except.bind, pure, Except.pure], ?_⟩
        exact .of_g I P T rfl rfl (by cnt) hp (by simp) (by simp)
      · obtain ⟨h', e, R⟩ := PcRes.inc (bh := bh) (n := { pc := .gLoad p (⟨x, b, p⟩ :: fs) y }) I P T (Nat.pos_of_ne_zero h0) (by cnt)
          (fun h' ek => ⟨rfl, hpar, Chain.congr (a := a) (a' := a.withB h') (by simp only [Arena.withB, ek]) rfl hp⟩) (by simp) rfl
        exact ⟨_, _, by simp [pcStep, getData_ok hv, hpar, h0, e, bind, Except.bind, pure, Except.pure], R⟩
  | gCas x b og fs y =>
    have hp : Chain a x fs y := hp
    obtain ⟨v, hv⟩ := hch (fun t h => by simp only [pcT]; exact List.mem_append_right _ h) hp
    by_cases hbx : a.box x = b
    · refine ⟨_, _, by simp only [pcStep, getData_ok hv, bind, Except.bind, if_pos hbx]; rfl, ?_⟩
      exact .of_g I P T rfl rfl (by cnt) ⟨x, hp⟩ (by simp) (by simp)
    · refine ⟨a, _, by simp only [pcStep, getData_ok hv, bind, Except.bind, if_neg hbx]; rfl, ?_⟩
      exact .of_g I P T rfl rfl (by cnt) hp (by simp) (by simp)
  | gRet g fs y =>
    obtain ⟨x, hp⟩ := hp
    cases fs with
    | nil =>
      obtain ⟨rfl, hk, _⟩ := hp
      refine ⟨_, _, rfl, ?_⟩
      exact .of_g I P T rfl rfl (by cnt) trivial (by simp) (by simpa [entOK] using hk)
    | cons f fs =>
      obtain ⟨rfl, h1, h2⟩ := hp
      refine ⟨_, _, rfl, ?_⟩
      exact .of_g I P T rfl rfl (by simp only [pcT, Option.toList]; cnt) h2 (by simp [aplain, plain]) (by simp)
  | gm0 d g =>
    have hp : a.b.sk.kind d = .data := hp
    obtain ⟨v, hv, h0⟩ := hgd g (by simp [pcT])
    by_cases hc : v.dGate = true
    · refine ⟨_, _, by simp only [pcStep, getG_of hv, bind, Except.bind, if_pos hc]; rfl, ?_⟩
      exact .of_g I P T rfl rfl (by cnt) trivial (by simp) (by simpa [entOK] using hp)
    · refine ⟨_, _, by simp only [pcStep, getG_of hv, bind, Except.bind, if_neg hc]; rfl, ?_⟩
      exact .of_g I P T rfl rfl (by cnt) hp (by simp) (by simp)
  | gm1 d g =>
    have hp : a.b.sk.kind d = .data := hp
    obtain ⟨v, hv, h0⟩ := hgd g (by simp [pcT])
    by_cases hc : a.gW g = 1
    · refine ⟨_, _, by simp only [pcStep, getG_of hv, bind, Except.bind, if_pos hc]; rfl, ?_⟩
      exact .of_g I P T rfl rfl (by cnt) hp (by simp) (by simp)
    · refine ⟨_, _, by simp only [pcStep, getG_of hv, bind, Except.bind, if_neg hc]; rfl, ?_⟩
      exact .of_g I P T rfl rfl (by cnt) hp (by simp) (by simp)
  | gm2 d g =>
    have hp : a.b.sk.kind d = .data := hp
    obtain ⟨v, hv, h0⟩ := hgd g (by simp [pcT])
    by_cases hc : v.cGate = true
    · refine ⟨_, _, by simp only [pcStep, getG_of hv, bind, Except.bind, if_pos hc]; rfl, ?_⟩
      exact .of_g I P T rfl rfl (by cnt) hp (by simp) (by simp)
    · refine ⟨_, _, by simp only [pcStep, getG_of hv, bind, Except.bind, if_neg hc]; rfl, ?_⟩
      exact .of_g I P T rfl rfl (by cnt) hp (by simp) (by simp)
  | gm3 d g =>
    have hp : a.b.sk.kind d = .data := hp
    obtain ⟨v, hv, h0⟩ := hgd g (by simp [pcT])
    by_cases hc : a.gS g = 1
    · refine ⟨_, _, by simp only [pcStep, getG_of hv, bind, Except.bind, if_pos hc]; rfl, ?_⟩
      exact .of_g I P T rfl rfl (by cnt) hp (by simp) (by simp)
    · refine ⟨_, _, by simp only [pcStep, getG_of hv, bind, Except.bind, if_neg hc]; rfl, ?_⟩
      exact .of_g I P T rfl rfl (by cnt) hp (by simp) (by simp)
  | gm4 d g =>
    have hp : a.b.sk.kind d = .data := hp
    obtain ⟨v, hv⟩ := I.data (href d (by simp [pcT])) hp
    refine ⟨_, _, by simp only [pcStep, getData_ok hv, bind, Except.bind]; rfl, ?_⟩
    exact .of_g I P T rfl rfl (by cnt) hp (by simp) (by simp)
  | gmOpenC d g ok =>
    have hp : a.b.sk.kind d = .data := hp
    obtain ⟨v, hv, h0⟩ := hgd g (by simp [pcT])
    refine ⟨_, _, by simp only [pcStep, getG_of hv, bind, Except.bind]; rfl, ?_⟩
    exact .of_g I P T rfl rfl (by cnt) hp (by simp) (by simp)
  | gmOpenD d g ok =>
    have hp : a.b.sk.kind d = .data := hp
    obtain ⟨v, hv, h0⟩ := hgd g (by simp [pcT])
    refine ⟨_, _, by simp only [pcStep, getG_of hv, bind, Except.bind]; rfl, ?_⟩
    exact .of_g I P T rfl rfl (by cnt) trivial (by simp) (by simpa [entOK] using hp)
  | im0 d g =>
    have hp : a.b.sk.kind d = .data := hp
    obtain ⟨v, hv, h0⟩ := hgd g (by simp [pcT])
    by_cases hc : v.cGate = true
    · refine ⟨_, _, by simp only [pcStep, getG_of hv, bind, Except.bind, if_pos hc]; rfl, ?_⟩
      exact .of_g I P T rfl rfl (by cnt) trivial (by simp) (by simpa [entOK] using hp)
    · refine ⟨_, _, by simp only [pcStep, getG_of hv, bind, Except.bind, if_neg hc]; rfl, ?_⟩
      exact .of_g I P T rfl rfl (by cnt) hp (by simp) (by simp)
  | im1 d g =>
    have hp : a.b.sk.kind d = .data := hp
    obtain ⟨v, hv, h0⟩ := hgd g (by simp [pcT])
    by_cases hc : a.gS g = 1
    · refine ⟨_, _, by simp only [pcStep, getG_of hv, bind, Except.bind, if_pos hc]; rfl, ?_⟩
      exact .of_g I P T rfl rfl (by cnt) hp (by simp) (by simp)
    · refine ⟨_, _, by simp only [pcStep, getG_of hv, bind, Except.bind, if_neg hc]; rfl, ?_⟩
      exact .of_g I P T rfl rfl (by cnt) hp (by simp) (by simp)
  | im2 d g =>
    have hp : a.b.sk.kind d = .data := hp
    obtain ⟨v, hv⟩ := I.data (href d (by simp [pcT])) hp
    by_cases hc : a.b.strong d = 1
    · have I0 : HInv a.b (.ref d :: (([] : List Fg).map fgT ++ (.gd g :: T))) := I
      obtain ⟨I1, e1, e2, e3⟩ := base_kill (r := ⟨v.buf, v.off, v.len, v.alloc⟩) (acc := []) hv hc I0 P
        (fun h1 h2 => I.good.shape.dataMem d v hv h1 h2) (by simp) (by intro b i; simp [Reg.span, DataV.span])
      refine ⟨_, _, by simp only [pcStep, getData_ok hv, bind, Except.bind, if_pos hc]; rfl,
        ⟨I1.count ?_, e1, e2, ?_, by simp, by simp⟩⟩
      rotate_left
      · rw [List.append_nil, List.append_nil] at e3; exact e3
      simp only [bare', bare, pcT]; cnt
    · refine ⟨_, _, by simp only [pcStep, getData_ok hv, bind, Except.bind, if_neg hc]; rfl, ?_⟩
      exact .of_g I P T rfl rfl (by cnt) hp (by simp) (by simp)
  | imOpen d g =>
    have hp : a.b.sk.kind d = .data := hp
    obtain ⟨v, hv, h0⟩ := hgd g (by simp [pcT])
    refine ⟨_, _, by simp only [pcStep, getG_of hv, bind, Except.bind]; rfl, ?_⟩
    exact .of_g I P T rfl rfl (by cnt) trivial (by simp) (by simpa [entOK] using hp)
  | imFg todo g r acc =>
    obtain ⟨h1, h2, h3⟩ : ImOK a.b.sk r acc todo := hp
    cases todo with
    | nil =>
      refine ⟨_, _, rfl, ?_⟩
      exact .of_g I P T rfl rfl (by cnt) ⟨h1, h2, h3⟩ (by simp) (by simp)
    | cons f todo =>
      cases f with
      | val w =>
        refine ⟨_, _, rfl, .of_g I P T rfl rfl (by cnt) ⟨h1, fun c hc => h2 c (List.mem_cons_of_mem _ hc), fun b i => ?_⟩
          (by simp [aplain, plain]) (by simp)⟩
        have := h3 b i
        simpa [fgNum] using this
      | kid c =>
        have hc := him c todo g r acc rfl
        have hk := h2 c (List.mem_cons_self ..)
        obtain ⟨v, hv⟩ := I.data (href c (by simp [pcT, fgT])) hk
        have I0 : HInv a.b (.ref c :: (todo.map fgT ++ (.gd g :: .reg (bare r) :: (acc.map .own ++ T)))) := I.count (by cnt)
        obtain ⟨I1, e1, e2, e3⟩ := base_kill (r := r) (acc := acc) hv hc I0 P h1
          (fun c hc => h2 c (List.mem_cons_of_mem _ hc)) (by
            intro b i
            have := h3 b i
            simp only [List.map_cons, List.sum_cons, fgNum, hv] at this
            omega)
        refine ⟨_, _, by simp only [pcStep, getData_ok hv, bind, Except.bind, if_pos hc]; rfl,
          ⟨I1.count ?_, e1, e2, ?_, by simp, by simp⟩⟩
        · simp only [bare', pcT]; cnt
        · obtain ⟨k1, k2, k3⟩ := e3
          refine ⟨k1, fun c hc => k2 c ?_, fun b i => ?_⟩
          · simp only [List.mem_append, List.mem_cons, reduceCtorEq, false_or] at hc
            exact List.mem_append.2 hc
          · have := k3 b i
            simp only [List.map_append, List.sum_append, List.map_cons, List.sum_cons, fgNum] at this ⊢
            simp only [Nat.zero_add]; exact this
  | imGate g r acc =>
    obtain ⟨v, hv, h0⟩ := hgd g (by simp [pcT])
    refine ⟨_, _, by simp only [pcStep, getG_of hv, bind, Except.bind]; rfl, ?_⟩
    exact .of_g I P T rfl rfl (by cnt) hp (by simp [aplain]) (by simp)
  | imOk r acc =>
    obtain ⟨h1, h2, h3⟩ : ImOK a.b.sk r acc [] := hp
    have I0 : HInv a.b (.reg { r with len := 0 } :: (acc.map .own ++ T)) := I
    have I1 := I0.join h1 (by simpa using h3)
    exact ⟨_, _, rfl, ⟨I1.count (by cnt), .refl B, P, trivial, by simp, by simp [entOK]⟩⟩
  | dg0 d g =>
    have hp : bh = some (.strong d g) := hp
    obtain ⟨_, ⟨v, hv, h0⟩, hk, _⟩ := hbd d g hp
    by_cases hc : v.dGate = true
    · refine ⟨_, _, by simp only [pcStep, getG_of hv, bind, Except.bind, if_pos hc]; rfl, ?_⟩
      exact .of_g I P T rfl rfl (by cnt) hp (by simp) (by simp)
    · refine ⟨_, _, by simp only [pcStep, getG_of hv, bind, Except.bind, if_neg hc]; rfl, ?_⟩
      exact .of_g I P T rfl rfl (by cnt) hp (by simp) (by simp)
  | dg1 d g =>
    have hp : bh = some (.strong d g) := hp
    obtain ⟨_, ⟨v, hv, h0⟩, hk, hlt⟩ := hbd d g hp
    refine ⟨_, _, by simp only [pcStep, getG_of hv, bind, Except.bind]; rfl, ?_⟩
    exact .of_g I P T rfl rfl (by simp only [entsT]; cnt) trivial (by simp) (by simpa [entOK] using ⟨hlt, hk⟩)
  | up d =>
    obtain ⟨g, hp⟩ := hp
    cases d with
    | none =>
      refine ⟨_, _, rfl, ?_⟩
      exact .of_g I P T rfl rfl (by cnt) trivial (by simp) (by simp)
    | some d =>
      obtain ⟨h1, h2⟩ := (hb _ hp).1 d rfl
      by_cases h0 : a.b.strong d = 0
      · refine ⟨_, _, by simp only [pcStep, if_pos h0]; rfl, ?_⟩
        exact .of_g I P T rfl rfl (by cnt) trivial (by simp) (by simp)
      · obtain ⟨h', e, R⟩ := PcRes.inc (bh := bh) (n := { pc := .gLoad d [] d }) I P T (Nat.pos_of_ne_zero h0) (by cnt)
          (fun _ ek => Chain.nil_withB ek h2 h1) (by simp) rfl
        exact ⟨_, _, by simp [pcStep, h0, e, bind, Except.bind, pure, Except.pure], R⟩
  | wc d g =>
    have hp : bh = some (.weak d g) := hp
    have ho := (hb _ hp).1
    cases g with
    | none =>
      refine ⟨_, _, rfl, ?_⟩
      exact .of_g I P T rfl rfl (by simp only [entsT]; cnt) trivial (by simp) (by
        intro e he; simp only [List.mem_singleton] at he; subst he; exact ho)
    | some g =>
      have h0 : a.gW g ≠ 0 := hw g (List.mem_append_right _ ((hb _ hp).2 _ (by simp [entT])))
      refine ⟨_, _, by simp only [pcStep, if_neg h0]; rfl, ?_⟩
      exact .of_g I P T rfl rfl (by simp only [entsT]; cnt) trivial (by simp) (by
        intro e he; simp only [List.mem_singleton] at he; subst he; exact ho)
  | wd g =>
    cases g with
    | none =>
      refine ⟨_, _, rfl, ?_⟩
      exact .of_g I P T rfl rfl (by cnt) trivial (by simp) (by simp)
    | some g =>
      have h0 : a.gW g ≠ 0 := hw g (by simp [pcT])
      refine ⟨_, _, by simp only [pcStep, if_neg h0]; rfl, ?_⟩
      exact .of_g I P T rfl rfl (by simp only [pcT, Option.toList]; cnt) trivial (by simp) (by simp)

end
end Verif.Arc
