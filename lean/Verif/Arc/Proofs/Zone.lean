import Verif.Arc.Proofs.Reach
/-!
# Calls stay where they are

A set of subslices is closed if cutting a member gives a member, and if the parent of a
member, when alive, is one. A call that was given a handle to a member, and holds references
to members only, goes on to hold references to members only; and the handles it returns are
handles to members.
-/

namespace Verif.Arc
open Verif.Spec (Side Slot Family Rng End)
open Verif.Rc
variable {α : Type}

/-- `R`: subslices whose data may be held. `G`: those whose guards may be held. `D`: those
of whose guards there may be `Weak`s. -/
structure Zone where
  R : Lab → Prop
  G : Lab → Prop
  D : Nat → Lab → Prop

structure Zone.OK (Z : Zone) (a : Arena α) : Prop where
  kid : ∀ l s, Z.R l → Z.R (l.child s)
  gup : ∀ l s, Z.G (l.child s) → Z.G l
  par : ∀ p v s, a.b.sk.node p = some (.data v) → Z.R ((a.b.sk.lab p).child s) → Z.R (a.b.sk.lab p)
  new : ∀ l, a.b.sk.nfam ≤ l.fam → Z.R l
  rg : ∀ l, Z.R l → Z.G l
  rd : ∀ x, x < a.b.sk.next → Z.R (a.b.sk.lab x) → Z.D x (a.b.sk.lab x)

/-- The token lies in the zone. -/
def TQ (Z : Zone) (a : Arena α) : AT → Prop
  | .ref x => a.b.sk.kind x = .data → Z.R (a.b.sk.lab x)
  | .gd g => Z.G (a.b.sk.lab (a.gOf g))
  | .wk g => Z.D (a.gOf g) (a.b.sk.lab (a.gOf g))
  | _ => True

/-- The handle lies in the zone; a `WeakSlice` may also be one that cannot be upgraded. -/
def HQ (Z : Zone) (a : Arena α) : Handle → Prop
  | .strong d _ => Z.R (a.b.sk.lab d)
  | .weak d _ => ∀ x, d = some x → Z.D x (a.b.sk.lab x) ∧ (Z.R (a.b.sk.lab x) ∨ a.b.sk.node x = none)
  | .uniq _ => True

section
variable {Z : Zone} {c c' : Conf α}

theorem TQ.mono {a' : Arena α} (B : c.BI) (F : c.GFI) (ge : GEvo c.a a') {t : AT} (ht : t ∈ c.T) (h : TQ Z c.a t) : TQ Z a' t := by
  cases t with
  | ref x =>
    have hx := B.heap.lt (ref_mem_aS ht)
    intro hk
    rw [ge.evo.evo.kind x hx] at hk
    rw [ge.evo.evo.lab x hx]
    exact h hk
  | gd g =>
    obtain ⟨v, hv, _⟩ := BI_gd B.gi ht
    have hg := F.gf.lt g v hv
    simp only [TQ]
    rw [ge.gOf g hg, ge.evo.evo.lab _ (F.gf.gof g hg).1]
    exact h
  | wk g =>
    have hg : g < c.a.ng := Arc.GI.wlt B.gi g (List.mem_flatMap.2 ⟨_, ht, by simp⟩)
    simp only [TQ]
    rw [ge.gOf g hg, ge.evo.evo.lab _ (F.gf.gof g hg).1]
    exact h
  | _ => trivial

theorem HQ.mono {a' : Arena α} (B : c.BI) (ge : GEvo c.a a') {k : Nat} {h : Handle} {m : Bool} (hk : c.get k = some ⟨h, m⟩)
    (hq : HQ Z c.a h) : HQ Z a' h := by
  cases h with
  | strong d g =>
    have hx := B.heap.lt (ref_mem_aS (Conf.get_tok' hk (t := .ref d) (by simp [entT])))
    simp only [HQ]
    rw [ge.evo.evo.lab d hx]; exact hq
  | weak d g =>
    intro x hx
    obtain ⟨h1, _⟩ := B.ents k _ hk x hx
    obtain ⟨h2, h3⟩ := hq x hx
    rw [ge.evo.evo.lab x h1]
    exact ⟨h2, h3.imp id (ge.evo.evo.dead x h1)⟩
  | uniq r => trivial

/-- What a handle in the zone consists of lies in the zone. -/
theorem HQ.tok (F : c.GFI) (O : Z.OK c.a) {k : Nat} {e : Ent} (hk : c.get k = some e) (hq : HQ Z c.a e.h) : ∀ t ∈ entT e, TQ Z c.a t := by
  obtain ⟨h, m⟩ := e
  intro t ht
  cases h with
  | strong d g =>
    obtain ⟨_, h2⟩ : ofG c.a d g := F.ents k _ hk
    simp only [entT, List.mem_cons, List.not_mem_nil, or_false] at ht
    rcases ht with rfl | rfl
    · exact fun _ => hq
    · simp only [TQ]; rw [h2]; exact O.rg _ hq
  | weak d g =>
    obtain ⟨g', hg, rfl⟩ : ∃ g', g = some g' ∧ t = .wk g' := by
      cases g <;> simp_all [entT]
    obtain ⟨y, rfl, _, h2⟩ := F.ents k _ hk g' hg
    simp only [TQ]; rw [h2]; exact (hq y rfl).1
  | uniq r => simp [entT] at ht; subst ht; trivial

theorem Move.zone {a a' : Arena α} {U U' K : List AT} {bh : Option Handle} {pc : Pc α} (M : Move a a' U U' K bh pc) (O : Z.OK a)
    (hU : ∀ x, .ref x ∈ U → a.b.sk.kind x = .data → Z.R (a.b.sk.lab x)) (hb : ∀ z g, bh = some (.strong z g) → Z.R (a.b.sk.lab z)) {x : Nat}
    (hx : .ref x ∈ U') (hk : a'.b.sk.kind x = .data) : Z.R (a'.b.sk.lab x) := by
  obtain ⟨I, I', P, P', ev, org, bor⟩ := M
  have S := I.good.shape.toDShape
  cases org x hx hk with
  | old h =>
    have hl := I.lt (ref_mem_aS (List.mem_append_left _ h))
    rw [ev.evo.kind x hl] at hk
    rw [ev.evo.lab x hl]
    exact hU x h hk
  | bor g h =>
    have hl := I.lt (ref_mem_aS (List.mem_append_right _ (bor x g h).1))
    rw [ev.evo.lab x hl]
    exact hb x g h
  | kid z g v s h hp hz hkk =>
    have hl := I.lt (ref_mem_aS (List.mem_append_right _ (bor z g h).1))
    rw [(I'.good.shape.toDShape.dataKid z v s x hz hkk).2.1, ev.evo.lab z hl]
    exact O.kid _ _ (hb z g h)
  | par w hw hkw hp =>
    obtain ⟨_, hl, hkx, s, h4⟩ := P.par w x hp
    rw [ev.evo.lab x hl]
    have h5 := hU w hw hkw
    rw [h4] at h5
    obtain ⟨v', hv'⟩ := I'.data (ref_mem_aS (List.mem_append_left _ hx)) hk
    cases hn : a.b.sk.node x with
    | none => rw [ev.evo.dead x hl hn] at hv'; cases hv'
    | some n =>
      have : n.kind = .data := by rw [← I.base.kinds x n hn]; exact hkx
      obtain ⟨v, rfl⟩ := data_of_kind this
      exact O.par x v s hn h5
  | dead w v s hw h1 hv hkk =>
    obtain ⟨_, hl, vx, hvx⟩ := S.dataKid w v s x hv hkk
    rw [ev.evo.lab x (I.base.lt hvx), hl]
    exact O.kid _ _ (hU w hw (I.base.kinds w _ hv))
  | root h hp hf => exact O.new _ hf

end

section
variable {a a' : Arena α}

theorem tok_base {t : AT} {ts : List Task} (h : t ∈ (ts.map ATask.base).flatMap ataskT) : ∃ u, t ∈ taskT u := by
  obtain ⟨u, h1, h2⟩ := List.mem_flatMap.1 h
  obtain ⟨w, _, rfl⟩ := List.mem_map.1 h1
  exact ⟨w, h2⟩

theorem gd_base {g : Nat} {ts : List Task} : AT.gd g ∉ (ts.map ATask.base).flatMap ataskT := by
  intro h
  obtain ⟨u, hu⟩ := tok_base h
  cases u <;> simp [taskT] at hu

theorem wk_tasks {g : Nat} {ts : List ATask} : AT.wk g ∉ ts.flatMap ataskT := by
  intro h
  obtain ⟨u, _, hu⟩ := List.mem_flatMap.1 h
  cases u with
  | base u => cases u <;> simp [ataskT, taskT] at hu
  | slice d g => simp [ataskT] at hu
  | guard g => simp [ataskT] at hu

theorem gd_task {t : ATask} {ts : List ATask} (e : ataskStep a t = .ok (a', ts)) {g' : Nat} (h : .gd g' ∈ ts.flatMap ataskT) :
    .gd g' ∈ ataskT t ∨ ∃ g v, .gd g ∈ ataskT t ∧ a.guard g = some v ∧ v.parent = some g' := by
  cases t with
  | base t =>
    obtain ⟨⟨h', ts'⟩, e1, e2⟩ := bind_ok e
    cases pure_ok e2
    exact absurd h gd_base
  | slice d g =>
    obtain ⟨⟨h', ts'⟩, e1, e2⟩ := bind_ok e
    cases pure_ok e2
    rw [List.flatMap_append, List.mem_append] at h
    rcases h with h | h
    · exact absurd h gd_base
    · simp only [List.flatMap_cons, List.flatMap_nil, ataskT, List.append_nil, List.mem_singleton, AT.gd.injEq] at h
      subst h
      exact .inl (by simp [ataskT])
  | guard g =>
    simp only [ataskStep, Arena.dropG] at e
    split at e
    · cases e
    · split at e
      · cases e; simp at h
      · split at e <;> cases e
        next v hv =>
        obtain ⟨u, h1, h2⟩ := List.mem_flatMap.1 h
        obtain ⟨p, h3, rfl⟩ := List.mem_map.1 h1
        simp only [ataskT, List.mem_singleton, AT.gd.injEq] at h2
        subst h2
        exact .inr ⟨g, v, by simp [ataskT], hv, by simpa using h3⟩

theorem gd_guards {g : Nat} {l : List Nat} (h : AT.gd g ∈ (l.map ATask.guard).flatMap ataskT) : g ∈ l := by
  obtain ⟨u, h1, h2⟩ := List.mem_flatMap.1 h
  obtain ⟨p, h3, rfl⟩ := List.mem_map.1 h1
  simp only [ataskT, List.mem_singleton, AT.gd.injEq] at h2
  exact h2 ▸ h3

theorem gd_fr {g : Nat} {fs : List GFrame} : AT.gd g ∉ frT fs := by simp [frT]
theorem wk_fr {g : Nat} {fs : List GFrame} : AT.wk g ∉ frT fs := by simp [frT]
theorem gd_fg {g : Nat} {l : List Fg} : AT.gd g ∉ l.map fgT := by
  intro h
  obtain ⟨f, _, h⟩ := List.mem_map.1 h
  cases f <;> cases h
theorem wk_fg {g : Nat} {l : List Fg} : AT.wk g ∉ l.map fgT := by
  intro h
  obtain ⟨f, _, h⟩ := List.mem_map.1 h
  cases f <;> cases h

theorem gd_pc {pc : Pc α} {n : Next α} {bh : Option Handle} (P : ParOK a) (hp : pcOK a bh pc) (hg : pcG a pc) (e : PStep a pc a' n) {g' : Nat}
    (hx : .gd g' ∈ n.tasks.flatMap ataskT ++ pcT n.pc ++ entsT n.push) :
    .gd g' ∈ pcT pc ∨ (∃ d, bh = some (.strong d g')) ∨ ∃ x, .ref x ∈ pcT pc ∧ a.b.sk.kind x = .data ∧ x < a.b.sk.next ∧ a'.gOf g' = x := by
  cases e with
  | nxt en r h o r' ts re hre e =>
    simp only [List.mem_append, gd_base, false_or] at hx
    simp [pcT, entsT, entT] at hx
  | cl2 d g h =>
    simp [pcT, entsT, entT] at hx
    subst hx
    exact .inr (.inl ⟨d, hp⟩)
  | gTryNo x b pend fs y h =>
    simp only [List.mem_append] at hx
    rcases hx with (hx | hx) | hx
    · exact .inl (by simp [pcT, List.mem_append, List.mem_map]; exact .inl (by simpa using gd_guards hx))
    · simp [pcT, gd_fr] at hx
    · simp [entsT] at hx
  | gTryOk x b pend fs y g hb hg' =>
    simp only [List.mem_append] at hx
    rcases hx with (hx | hx) | hx
    · exact .inl (by simp [pcT, List.mem_append, List.mem_map]; exact .inl (by simpa using gd_guards hx))
    · simp [pcT, gd_fr] at hx
      subst hx
      have hc : Chain a x fs y := hp
      have := hc.data P
      exact .inr (.inr ⟨x, by simp only [pcT, List.mem_append]; exact .inr hc.held, this.1, this.2, (hg.1.2 _ hb).2⟩)
    · simp [entsT] at hx
  | gCasWin x b og fs y v hd hb =>
    simp [pcT, entsT, gd_fr] at hx
    subst hx
    have hc : Chain a x fs y := hp
    have := hc.data P
    exact .inr (.inr ⟨x, by simp only [pcT, List.mem_append]; exact .inr hc.held, this.1, this.2, upd_same _ _ _⟩)
  | gCasLost x b og fs y v hd hb => exact .inl (by simpa [pcT, entsT] using hx)
  | gRet0 g y => exact .inl (by simpa [pcT, entsT, entT, frT] using hx)
  | gRet1 g f fs y =>
    simp [pcT, entsT, ataskT, taskT, gd_fr] at hx
    exact .inl (by simp [pcT, hx])
  | im2 d g v hd hc =>
    simp [pcT, entsT, gd_fg] at hx
    exact .inl (by simp [pcT, hx])
  | imKid c todo g r acc v hd hc =>
    simp [pcT, entsT, fgT, gd_fg] at hx
    exact .inl (by simp [pcT, hx])
  | imKidNo c todo g r acc v hd hc =>
    simp [pcT, entsT, ataskT, taskT, gd_fg] at hx
    exact .inl (by simp [pcT, hx])
  | imVal w todo g r acc =>
    simp [pcT, entsT, ataskT, taskT, gd_fg] at hx
    exact .inl (by simp [pcT, hx])
  | imFg0 g r acc =>
    simp [pcT, entsT] at hx
    exact .inl (by simp [pcT, hx])
  | imGate g r acc v hv =>
    simp [pcT, entsT, ataskT] at hx
    exact .inl (by simp [pcT, hx])
  | gm0No | gm0 | gm1No | gm1 | gm2No | gm2 | gm3No | gm3 | gm4No | gm4 | gmOpenC | gmOpenD | im0No | im0 | im1No | im1 | im2No | imOpen =>
    exact .inl (by simpa [pcT, entsT, entT] using hx)
  | _ => simp [pcT, entsT, entT, ataskT, taskT, gd_fr] at hx

theorem wk_pc {pc : Pc α} {n : Next α} {bh : Option Handle} (hp : pcOK a bh pc) (e : PStep a pc a' n) {g' : Nat}
    (hx : .wk g' ∈ n.tasks.flatMap ataskT ++ pcT n.pc ++ entsT n.push) :
    (∃ d, bh = some (.strong d g')) ∨ ∃ d, bh = some (.weak d (some g')) := by
  simp only [List.mem_append, wk_tasks, false_or] at hx
  cases e with
  | dg1 d g v hv =>
    simp [pcT, entsT, entT] at hx
    subst hx
    exact .inl ⟨d, hp⟩
  | wc d g h =>
    simp [pcT, entsT, entT] at hx
    subst hx
    exact .inr ⟨d, hp⟩
  | _ => simp [pcT, entsT, entT, wk_fr, wk_fg, fgT] at hx

end

section
variable {Z : Zone} {c c' : Conf α}

/-- A step of a call in the zone. -/
theorem zone_step {b : Bool} (A : c.IA b) (O : Z.OK c.a) {i : Nat} {cl : Call α} (hi : c.calls[i]? = some cl)
    (ht : ∀ t ∈ callT cl, TQ Z c.a t) (hb : ∀ h, cl.bh c = some h → HQ Z c.a h) (e : c.step i = .ok c') :
    (∀ cl', c'.calls[i]? = some cl' → ∀ t ∈ callT cl', TQ Z c'.a t) ∧
    ∀ k en, c'.get k = some en → c.get k = some en ∨ HQ Z c'.a en.h := by
  obtain ⟨c3, e3, A', ge⟩ := A.step (i := i)
  rw [e] at e3; cases e3
  have B := A.bi
  have B' := A'.bi
  have keep : ∀ t ∈ callT cl, TQ Z c'.a t := fun t h => (ht t h).mono B A.gf ge (Conf.call_tok hi h)
  cases CStep.of e with
  | none h => rw [hi] at h; cases h
  | task cl0 t ts a' new hi0 ht0 e1 =>
    rw [hi] at hi0; cases hi0
    obtain ⟨M, p, p'⟩ := move_task B hi ht0 e1 rfl B' ge.evo
    have sub : ∀ u ∈ ataskT t, u ∈ callT cl := fun u hu => by simp [callT, ht0, hu]
    refine ⟨fun cl' hcl u hu => ?_, fun k en hk => ?_⟩
    · rcases after_calls hi hcl with ⟨_, rfl⟩ | ⟨h, _⟩
      · simp only [callT, List.flatMap_append, List.mem_append] at hu
        rcases hu with (hu | hu) | hu
        · cases u with
          | ref x =>
            exact fun hk => M.zone O (fun x hx hk => ht _ (sub _ hx) hk) (fun _ _ h => by cases h) hu hk
          | gd g' =>
            rcases gd_task e1 hu with h | ⟨g, v, h1, h2, h3⟩
            · exact keep _ (sub _ h)
            · obtain ⟨h4, h5⟩ := A.gf.gf.link1 g v g' h2 h3
              have hg := A.gf.gf.lt g v h2
              have hg' : g' < c.a.ng := by omega
              obtain ⟨_, _, _, s, h6⟩ := B.par.par _ _ h5
              have h7 : Z.G (c.a.b.sk.lab (c.a.gOf g)) := ht _ (sub _ h1)
              rw [h6] at h7
              show Z.G ((c.after i a' _ _).a.b.sk.lab _)
              rw [ge.gOf g' hg', ge.evo.evo.lab _ (A.gf.gf.gof g' hg').1]
              exact O.gup _ _ h7
          | wk g => exact absurd hu wk_tasks
          | _ => trivial
        · exact keep _ (by simp only [callT, ht0, List.flatMap_cons, List.mem_append]; exact .inl (.inr hu))
        · exact keep _ (by simp only [callT, List.mem_append]; exact .inr hu)
      · exact absurd rfl h
    · rcases after_get hk with h | ⟨_, h⟩
      · exact .inl h
      · simp at h
  | pc cl0 a' n hi0 ht0 e1 =>
    rw [hi] at hi0; cases hi0
    have E := PStep.of e1
    have sub : ∀ u ∈ pcT cl.pc, u ∈ callT cl := fun u hu => by simp [callT, hu]
    have hpo := (B.calls i cl hi).1
    have hpg := (A.gf.calls i cl hi).1
    have bor : ∀ {h : Handle}, cl.bh c = some h → HQ Z a' h := by
      intro h hh
      obtain ⟨k, m, _, hk⟩ := Conf.bh_get hh
      exact (hb h hh).mono B ge hk
    have new : ∀ u ∈ n.tasks.flatMap ataskT ++ pcT n.pc ++ entsT n.push, TQ Z a' u := by
      intro u hu
      cases u with
      | ref x =>
        intro hk
        by_cases hup : ∃ d, cl.pc = .up d
        · obtain ⟨d, hd⟩ := hup
          rw [hd] at E hpo
          cases E with
          | upN => simp [pcT, entsT] at hu
          | upNo d h => simp [pcT, entsT] at hu
          | up d h hs e2 =>
            simp [pcT, entsT, frT] at hu
            subst hu
            obtain ⟨g, hpo⟩ := hpo
            rcases (hb _ hpo x rfl).2 with h1 | h1
            · obtain ⟨_, rfl⟩ := incS_some e2
              exact h1
            · have := (B.heap.good.ledger.live x).2 (Nat.pos_of_ne_zero hs)
              rw [h1] at this; cases this
        · obtain ⟨M, p, p'⟩ := move_pc B (fun d hd => hup ⟨d, hd⟩) hi ht0 E rfl B' ge.evo
          exact M.zone O (fun x hx hk => ht _ (sub _ hx) hk) (fun z g h => hb _ h) hu hk
      | gd g' =>
        rcases gd_pc B.par hpo hpg E hu with h | ⟨d, h⟩ | ⟨x, h1, h2, h3, h4⟩
        · exact keep _ (sub _ h)
        · obtain ⟨k, m, _, hk⟩ := Conf.bh_get h
          have h1 := HQ.tok A.gf O hk (hb _ h) (.gd g') (by simp [entT])
          exact h1.mono B A.gf ge (Conf.get_tok' hk (by simp [entT]))
        · show Z.G (a'.b.sk.lab (a'.gOf g'))
          have hl : a'.b.sk.lab x = c.a.b.sk.lab x := ge.evo.evo.lab x h3
          rw [h4, hl]
          exact O.rg _ (ht _ (sub _ h1) h2)
      | wk g' =>
        rcases wk_pc hpo E hu with ⟨d, h⟩ | ⟨d, h⟩
        · obtain ⟨k, m, _, hk⟩ := Conf.bh_get h
          obtain ⟨h1, h2⟩ : ofG c.a d g' := A.gf.ents k _ hk
          show Z.D (a'.gOf g') (a'.b.sk.lab (a'.gOf g'))
          have h3 : a'.gOf g' = c.a.gOf g' := ge.gOf g' h1
          have h4 := B.heap.lt (ref_mem_aS (Conf.get_tok' hk (t := .ref d) (by simp [entT])))
          have hl : a'.b.sk.lab d = c.a.b.sk.lab d := ge.evo.evo.lab d h4
          rw [h3, h2, hl]
          exact O.rd d h4 (hb _ h)
        · obtain ⟨k, m, _, hk⟩ := Conf.bh_get h
          have h1 := HQ.tok A.gf O hk (hb _ h) (.wk g') (by simp [entT])
          exact h1.mono B A.gf ge (Conf.get_tok' hk (by simp [entT]))
      | _ => trivial
    refine ⟨fun cl' hcl u hu => ?_, fun k en hk => ?_⟩
    · rcases after_calls hi hcl with ⟨_, rfl⟩ | ⟨h, _⟩
      · exact new u (List.mem_append_left _ hu)
      · exact absurd rfl h
    · rcases after_get hk with h | ⟨_, h⟩
      · exact .inl h
      · refine .inr ?_
        obtain ⟨hh, m⟩ := en
        cases hh with
        | strong d g =>
          exact new (.ref d) (List.mem_append_right _ (List.mem_flatMap.2 ⟨_, h, by simp [entT]⟩)) (B'.ents k _ hk)
        | weak d g =>
          have : (∃ d0 g0, cl.bh c = some (.strong d0 g0) ∧ d = some d0) ∨ ∃ g0, cl.bh c = some (.weak d g0) := by
            have e2 : ∀ pc, cl.pc = pc → PStep c.a pc a' n → pcOK c.a (cl.bh c) pc →
                (∃ d0 g0, cl.bh c = some (.strong d0 g0) ∧ d = some d0) ∨ ∃ g0, cl.bh c = some (.weak d g0) := by
              intro pc _ E hpo
              cases E with
              | dg1 d g v hv =>
                simp at h
                obtain ⟨⟨rfl, rfl⟩, rfl⟩ := h
                exact .inl ⟨d, g, hpo, rfl⟩
              | wcN d => simp at h; obtain ⟨⟨rfl, rfl⟩, rfl⟩ := h; exact .inr ⟨_, hpo⟩
              | wc d g hg => simp at h; obtain ⟨⟨rfl, rfl⟩, rfl⟩ := h; exact .inr ⟨_, hpo⟩
              | _ => simp at h
            exact e2 _ rfl E hpo
          rcases this with ⟨d0, g0, h1, rfl⟩ | ⟨g0, h1⟩
          · obtain ⟨k0, m0, _, hk0⟩ := Conf.bh_get h1
            have h4 := B.heap.lt (ref_mem_aS (Conf.get_tok' hk0 (t := .ref d0) (by simp [entT])))
            have h5 : Z.R (c.a.b.sk.lab d0) := hb _ h1
            intro x hx
            cases hx
            rw [ge.evo.evo.lab d0 h4]
            exact ⟨O.rd d0 h4 h5, .inl h5⟩
          · have h2 : HQ Z a' (.weak d g0) := bor h1
            exact h2
        | uniq r => trivial

end
end Verif.Arc
