import Verif.Props.ArcLive
import Verif.Props.ArcExclusive
import Verif.Props.ArcRelease
import Verif.Arc.Seq
import Verif.Rc.Proofs.Refine
/-!
# States in which no call is in flight
-/

namespace Verif.Arc
open Verif.Spec (Side Slot Family Rng End)
open Verif.Rc
variable {α : Type} {c c' : Conf α} {P : Rules α} {zst : Bool}

theorem quiet_calls (hq : c.Quiet) : c.calls.flatMap callT = [] := by
  rw [List.flatMap_eq_nil_iff]
  intro cl hcl
  obtain ⟨r, h1, h2⟩ := fin_pc (hq cl hcl)
  simp [callT, h1, h2, pcT]

/-- The tokens of one handle and those of the others. -/
theorem quiet_split (hq : c.Quiet) {m : Nat} {e : Ent} (hm : c.get m = some e) :
    ∃ R, c.T.Perm (entT e ++ R) ∧ ∀ t ∈ R, ∃ m' e', m' ≠ m ∧ c.get m' = some e' ∧ t ∈ entT e' := by
  have h1 := list_split (Conf.get_some hm)
  refine ⟨(c.hs.take m ++ c.hs.drop (m + 1)).flatMap slotT, ?_, fun t ht => ?_⟩
  · rw [Conf.T, quiet_calls hq, List.append_nil]
    have p : c.hs.Perm (some e :: (c.hs.take m ++ c.hs.drop (m + 1))) := by
      conv => lhs; rw [h1]
      exact List.perm_middle
    have := p.flatMap_right slotT
    simpa [List.flatMap_cons, slotT] using this
  · obtain ⟨o, ho, ht⟩ := List.mem_flatMap.1 ht
    cases o with
    | none => simp [slotT] at ht
    | some e' =>
      have key : ∃ m', m' ≠ m ∧ c.hs[m']? = some (some e') := by
        rcases List.mem_append.1 ho with ho | ho
        · obtain ⟨i, hi⟩ := List.getElem?_of_mem ho
          have hlt : i < m := by
            refine Decidable.byContradiction fun hn => ?_
            rw [List.getElem?_take_eq_none (by omega)] at hi; cases hi
          rw [List.getElem?_take_of_lt hlt] at hi
          exact ⟨i, by omega, hi⟩
        · obtain ⟨i, hi⟩ := List.getElem?_of_mem ho
          rw [List.getElem?_drop] at hi
          exact ⟨m + 1 + i, by omega, hi⟩
      obtain ⟨m', h2, h3⟩ := key
      exact ⟨m', e', h2, by simp [Conf.get, h3], ht⟩

theorem quiet_tok (hq : c.Quiet) {t : AT} (ht : t ∈ c.T) : ∃ m e, c.get m = some e ∧ t ∈ entT e := by
  rw [Conf.T, quiet_calls hq, List.append_nil] at ht
  obtain ⟨o, ho, ht⟩ := List.mem_flatMap.1 ht
  cases o with
  | none => simp [slotT] at ht
  | some e =>
    obtain ⟨m, hm⟩ := List.getElem?_of_mem ho
    exact ⟨m, e, by simp [Conf.get, hm], ht⟩

theorem quiet_ref (hq : c.Quiet) {x : Nat} (h : .ref x ∈ c.T) : ∃ m g b, c.get m = some ⟨.strong x g, b⟩ := by
  obtain ⟨m, ⟨hh, b⟩, h1, h2⟩ := quiet_tok hq h
  cases hh with
  | strong d g => simp only [entT, List.mem_cons, AT.ref.injEq, reduceCtorEq, List.not_mem_nil, or_self, or_false] at h2; subst h2; exact ⟨m, g, b, h1⟩
  | weak d g => simp [entT] at h2
  | uniq r => simp [entT] at h2

/-! ## Memory -/

/-- The memory of a buffer is kept by slice data, a unique slice, or a reference. -/
theorem HInv.mem_held {h : Heap α} {T : List AT} (I : HInv h T) {b : Nat} (hm : h.sk.mem b = true) :
    ∃ a, h.sk.node a = some (.alloc b) ∧ ((∃ x v, h.sk.node x = some (.data v) ∧ v.alloc = some a ∧ v.buf = b) ∨
      (∃ r, .reg r ∈ T ∧ r.alloc = some a ∧ r.buf = b) ∨ .ref a ∈ T) := by
  obtain ⟨a, ha⟩ := I.good.shape.memAlloc b hm
  have hk : h.sk.kind a = .alloc := I.good.shape.kinds _ _ ha
  refine ⟨a, ha, ?_⟩
  have hpos := (I.good.ledger.live a).1 (by rw [ha]; rfl)
  rw [I.good.ledger.s a] at hpos
  by_cases hc : 0 < (aS T).count a
  · obtain ⟨t, h1, h2⟩ := List.mem_flatMap.1 (List.count_pos_iff.1 hc)
    cases t with
    | ref x => simp only [AT.S, List.mem_singleton] at h2; subst h2; exact .inr (.inr h1)
    | reg r =>
      have h3 : r.alloc = some a := by simpa using h2
      have := (I.regs r h1).1 a h3
      rw [ha] at this; cases this
      exact .inr (.inl ⟨r, h1, h3, rfl⟩)
    | _ => simp at h2
  · obtain ⟨y, n, _, hy, hr⟩ := nsum_pos (f := fun n => n.srefs.count a) (k := h.sk) (by omega)
    have hr := List.count_pos_iff.1 hr
    rcases I.only y n hy with hkn | hkn
    · obtain ⟨w, rfl⟩ := data_of_kind hkn
      have kid : ∀ s, w.kids s = some a → False := by
        intro s hs
        obtain ⟨_, _, vc, h3⟩ := I.good.shape.toDShape.dataKid y w s a hy hs
        rw [ha] at h3; cases h3
      simp only [Node.srefs, List.mem_append, Option.mem_toList] at hr
      rcases hr with (hr | hr) | hr
      · exact (kid _ hr).elim
      · exact (kid _ hr).elim
      · have := I.good.shape.dataAlloc y w a hy hr
        rw [ha] at this; cases this
        exact .inl ⟨y, w, hy, hr, rfl⟩
    · cases n <;> simp [Node.kind] at hkn
      simp [Node.srefs] at hr

/-- The handle keeps the memory of the buffer. -/
def Keeps (k : Skel) (b : Nat) : Handle → Prop
  | .strong d _ => ∃ v, k.node d = some (.data v) ∧ v.buf = b ∧ v.alloc.isSome = true
  | .weak _ _ => False
  | .uniq r => r.buf = b ∧ r.alloc.isSome = true

theorem quiet_mem (B : c.BI) (hq : c.Quiet) {b : Nat} (hm : c.a.b.sk.mem b = true) : ∃ m e, c.get m = some e ∧ Keeps c.a.b.sk b e.h := by
  obtain ⟨a, ha, ⟨x, v, hx, h1, rfl⟩ | ⟨r, hr, h1, rfl⟩ | hl⟩ := B.heap.mem_held hm
  · obtain ⟨y, u, hy, hu, hup⟩ := B.heap.data_held hx
    obtain ⟨m, g, b, hm⟩ := quiet_ref hq hy
    have := B.heap.good.shape.data_inside hu hx hup
    exact ⟨m, _, hm, u, hu, this.1.symm, this.2.2.2 (by rw [h1]; rfl)⟩
  · obtain ⟨m, ⟨hh, b⟩, h2, h3⟩ := quiet_tok hq hr
    cases hh with
    | strong d g => simp [entT] at h3
    | weak d g => simp [entT] at h3
    | uniq r' => simp only [entT, List.mem_singleton, AT.reg.injEq] at h3; subst h3; exact ⟨m, _, h2, rfl, by rw [h1]; rfl⟩
  · obtain ⟨m, g, b, hm⟩ := quiet_ref hq hl
    have := B.ents m _ hm
    simp only [entOK] at this
    rw [B.heap.good.shape.kinds _ _ ha] at this; cases this

theorem keeps_mem (B : c.BI) {m b : Nat} {e : Ent} (hm : c.get m = some e) (hk : Keeps c.a.b.sk b e.h) (hz : c.a.b.sk.zst = false) :
    c.a.b.sk.mem b = true := by
  obtain ⟨hh, mb⟩ := e
  cases hh with
  | strong d g =>
    obtain ⟨v, hd, rfl, h1⟩ := hk
    obtain ⟨a, ha⟩ := Option.isSome_iff_exists.1 h1
    exact B.heap.good.shape.allocMem a _ (B.heap.good.shape.dataAlloc d v a hd ha) hz
  | weak d g => exact False.elim hk
  | uniq r =>
    obtain ⟨rfl, h1⟩ := hk
    obtain ⟨a, ha⟩ := Option.isSome_iff_exists.1 h1
    exact B.heap.good.shape.allocMem a _ ((B.heap.regs r (Conf.get_tok' hm (by simp [entT]))).1 a ha) hz

/-! ## Who is alone -/

theorem data_of_strong (B : c.BI) {m d g : Nat} {b : Bool} (hm : c.get m = some ⟨.strong d g, b⟩) :
    ∃ v, c.a.b.sk.node d = some (.data v) :=
  B.heap.data (ref_mem_aS (Conf.get_tok' hm (by simp [entT]))) (B.ents m _ hm)

theorem guard_of_strong (B : c.BI) {m d g : Nat} {b : Bool} (hm : c.get m = some ⟨.strong d g, b⟩) : ∃ v, c.a.guard g = some v := by
  refine (Arc.GI.live B.gi g).1 ?_
  have h := Arc.GI.strong B.gi g
  have : 0 < (aGd c.T).count g := List.count_pos_iff.2 (mem_aGd (Conf.get_tok' hm (t := .gd g) (by simp [entT])) (by simp))
  omega

/-- Below every guard there is a handle. -/
theorem guard_held (B : c.BI) (F : c.GFI) (hq : c.Quiet) {g : Nat} {v : GuardV} (hg : c.a.guard g = some v) :
    ∃ m d g' b, c.get m = some ⟨.strong d g', b⟩ ∧ (c.a.b.sk.lab (c.a.gOf g)).up (c.a.b.sk.lab d) := by
  generalize hn : c.a.ng - g = n
  induction n using Nat.strongRecOn generalizing g v with
  | ind n ih =>
    have hs := (Arc.GI.live B.gi g).2 ⟨v, hg⟩
    rw [Arc.GI.strong B.gi g] at hs
    by_cases hc : 0 < (aGd c.T).count g
    · obtain ⟨t, h1, h2⟩ := List.mem_flatMap.1 (List.count_pos_iff.1 hc)
      cases t with
      | gd x =>
        simp only [AT.gds, List.mem_singleton] at h2; subst h2
        obtain ⟨m, ⟨hh, b⟩, h3, h4⟩ := quiet_tok hq h1
        cases hh with
        | strong d g' =>
          simp only [entT, List.mem_cons, AT.gd.injEq, reduceCtorEq, List.not_mem_nil, false_or, or_false] at h4
          subst h4
          obtain ⟨_, h5⟩ : ofG c.a d g := F.ents m _ h3
          exact ⟨m, d, g, b, h3, by rw [h5]; exact Lab.up_refl _⟩
        | weak d g => simp [entT] at h4
        | uniq r => simp [entT] at h4
      | _ => simp at h2
    · obtain ⟨x, w, hx, hw, hp⟩ := prefs_mem (f := c.a.guard) (n := c.a.ng) (g := g) (by omega)
      obtain ⟨h1, h2⟩ := F.gf.link1 x w g hw hp
      obtain ⟨m, d, g', b, h3, h4⟩ := ih (c.a.ng - x) (by omega) hw rfl
      obtain ⟨_, _, _, s, h5⟩ := B.par.par _ _ h2
      rw [h5] at h4
      exact ⟨m, d, g', b, h3, Lab.up_of_child h4⟩

/-- The counts that `get_mut` and `into_mut` look at are 1 iff there is no other handle to
the slice, to one it was cut from, or to one cut from it. -/
theorem lone_iff (B : c.BI) (F : c.GFI) (hq : c.Quiet) {m d g : Nat} {b : Bool} (hm : c.get m = some ⟨.strong d g, b⟩) :
    (c.a.gS g = 1 ∧ c.a.b.strong d = 1) ↔ ∀ m' d' g' b', c.get m' = some ⟨.strong d' g', b'⟩ → m' ≠ m →
      ¬ ((c.a.b.sk.lab d).up (c.a.b.sk.lab d') ∨ (c.a.b.sk.lab d').up (c.a.b.sk.lab d)) := by
  have S := B.heap.good.shape.toDShape
  obtain ⟨R, p, hR⟩ := quiet_split hq hm
  have I := B.heap.perm p
  obtain ⟨v, hd⟩ := data_of_strong B hm
  obtain ⟨vg, hg⟩ := guard_of_strong B hm
  obtain ⟨_, hgo⟩ : ofG c.a d g := F.ents m _ hm
  have hkd : c.a.b.sk.kind d = .data := B.ents m _ hm
  have cS : ∀ x, (aS c.T).count x = (if d = x then 1 else 0) + (aS R).count x := by
    intro x
    rw [(aS_perm p).count_eq]
    simp [entT, List.count_cons]; omega
  have cG : ∀ x, (aGd c.T).count x = (if g = x then 1 else 0) + (aGd R).count x := by
    intro x
    have := (p.flatMap_right AT.gds).count_eq x
    rw [show (aGd c.T).count x = _ from this]
    show List.count x (aGd (entT _ ++ R)) = _
    simp [entT, List.count_cons]; omega
  have hs := B.heap.good.ledger.s d
  rw [cS, if_pos rfl] at hs
  have hgs := Arc.GI.strong B.gi g
  rw [cG, if_pos rfl] at hgs
  constructor
  · rintro ⟨h1, h2⟩ m' d' g' b' hm' hne hu
    obtain ⟨v', hd'⟩ := data_of_strong B hm'
    obtain ⟨vg', hg'⟩ := guard_of_strong B hm'
    obtain ⟨_, hgo'⟩ : ofG c.a d' g' := F.ents m' _ hm'
    have hl : Loose c.a d := by
      have I' : HInv c.a.b (.ref d :: (.gd g :: R)) := I
      exact Loose.solo I' h2 hd
    by_cases e : c.a.b.sk.lab d = c.a.b.sk.lab d'
    · cases S.dataUniq _ _ _ _ hd hd' e
      have : .ref d ∈ R := by
        obtain ⟨R2, p2⟩ := two_handles hm hm' hne
        have q : (entT ⟨.strong d g, b⟩ ++ R).Perm (entT ⟨.strong d g, b⟩ ++ (entT ⟨.strong d g', b'⟩ ++ R2)) := p.symm.trans p2
        have q' := (List.perm_append_left_iff _).1 q
        exact q'.mem_iff.2 (by simp [entT])
      have := List.count_pos_iff.2 (ref_mem_aS this)
      omega
    · rcases hu with hu | hu
      · obtain ⟨g1, v1, g2, h3, h4, h5, _⟩ := guard_chain S F.gf B.par B.gi hg' hgo'.symm hd hd' hu e
        have h6 := prefs_pos (n := c.a.ng) (F.gf.lt g1 v1 h3) h3 h4
        obtain ⟨v2, h7⟩ := (Arc.GI.live B.gi g2).1 (by rw [Arc.GI.strong B.gi g2]; omega)
        cases F.gf.unique h7 hg (by rw [h5, hgo]) (by rw [h5]; exact hd)
        omega
      · exact e (hl d' v' hd' hu).symm
  · intro h
    refine Decidable.byContradiction fun hn => ?_
    have one : ∀ m' d' g' b', c.get m' = some ⟨.strong d' g', b'⟩ →
        ((c.a.b.sk.lab d).up (c.a.b.sk.lab d') ∨ (c.a.b.sk.lab d').up (c.a.b.sk.lab d)) → m' = m :=
      fun m' d' g' b' h1 h2 => Decidable.byContradiction fun hne => h m' d' g' b' h1 hne h2
    by_cases h1 : c.a.b.strong d = 1
    · have h2 : c.a.gS g ≠ 1 := fun h2 => hn ⟨h2, h1⟩
      by_cases hc : 0 < (aGd R).count g
      · obtain ⟨t, h3, h4⟩ := List.mem_flatMap.1 (List.count_pos_iff.1 hc)
        cases t with
        | gd x =>
          simp only [AT.gds, List.mem_singleton] at h4; subst h4
          obtain ⟨m', ⟨hh, b'⟩, hne, h5, h6⟩ := hR _ h3
          cases hh with
          | strong d' g' =>
            simp only [entT, List.mem_cons, AT.gd.injEq, reduceCtorEq, List.not_mem_nil, false_or, or_false] at h6
            subst h6
            obtain ⟨_, h7⟩ : ofG c.a d' g := F.ents m' _ h5
            have : d' = d := by rw [← h7, hgo]
            subst this
            exact hne (one m' _ _ _ h5 (.inl (Lab.up_refl _)))
          | weak d g => simp [entT] at h6
          | uniq r => simp [entT] at h6
        | _ => simp at h4
      · obtain ⟨x, w, hx, hw, hp⟩ := prefs_mem (f := c.a.guard) (n := c.a.ng) (g := g) (by omega)
        obtain ⟨_, h4⟩ := F.gf.link1 x w g hw hp
        obtain ⟨m', d', g', b', h5, h6⟩ := guard_held B F hq hw
        obtain ⟨_, _, _, s, h7⟩ := B.par.par _ _ h4
        rw [h7, hgo] at h6
        have := one m' d' g' b' h5 (.inl (Lab.up_of_child h6))
        subst this
        rw [hm] at h5; cases h5
        exact Lab.not_child_up _ _ h6
    · by_cases hc : 0 < (aS R).count d
      · obtain ⟨t, h3, h4⟩ := List.mem_flatMap.1 (List.count_pos_iff.1 hc)
        have h5 : .ref d ∈ R := by
          cases t with
          | ref x => simp only [AT.S, List.mem_singleton] at h4; subst h4; exact h3
          | reg r =>
            have h6 : r.alloc = some d := by simpa using h4
            have := B.heap.good.shape.kinds _ _ ((I.regs r (List.mem_append_right _ h3)).1 d h6)
            rw [hkd] at this; cases this
          | _ => simp at h4
        obtain ⟨m', ⟨hh, b'⟩, hne, h6, h7⟩ := hR _ h5
        cases hh with
        | strong d' g' =>
          simp only [entT, List.mem_cons, AT.ref.injEq, reduceCtorEq, List.not_mem_nil, or_self, or_false] at h7
          subst h7
          exact hne (one m' _ _ _ h6 (.inl (Lab.up_refl _)))
        | weak d g => simp [entT] at h7
        | uniq r => simp [entT] at h7
      · obtain ⟨y, n, _, hy, hmm⟩ := nsum_pos (f := fun n => n.srefs.count d) (k := c.a.b.sk) (by omega)
        have hmm := List.count_pos_iff.1 hmm
        have kid : ∀ w s, c.a.b.sk.node y = some (.data w) → w.kids s = some d → False := by
          intro w s hw hs
          obtain ⟨_, h3, _⟩ := S.dataKid y w s d hw hs
          obtain ⟨z, u, h4, _, h5⟩ := B.heap.data_held hw
          obtain ⟨m', g', b', h6⟩ := quiet_ref hq h4
          have := one m' z g' b' h6 (.inr (Lab.up_trans h5 (by rw [h3]; exact Lab.up_child _ _)))
          subst this
          rw [hm] at h6; cases h6
          rw [h3] at h5
          exact Lab.not_child_up _ _ h5
        rcases B.heap.only y n hy with hkn | hkn
        · obtain ⟨w, rfl⟩ := data_of_kind hkn
          simp only [Node.srefs, List.mem_append, Option.mem_toList] at hmm
          rcases hmm with (hmm | hmm) | hmm
          · exact kid w _ hy hmm
          · exact kid w _ hy hmm
          · have := B.heap.good.shape.kinds _ _ (S.dataAlloc y w d hy hmm)
            rw [hkd] at this; cases this
        · cases n <;> simp [Node.kind] at hkn
          simp [Node.srefs] at hmm

/-! ## A call that is alone returns -/

theorem steps_ok {i n : Nat} (e : c.step i = .ok c') : steps c i (n + 1) = steps c' i n := by
  simp only [steps, e]; rfl

theorem alone_returns (hP : Tame P) (h : Conf.Reach P zst c) {i : Nat}
    (hi : ∀ (j : Nat) cl, c.calls[j]? = some cl → j ≠ i → cl.fin = true) : ∃ n c', steps c i n = .ok c' ∧ c'.Quiet := by
  have wf := (Prod.lex ⟨(· < ·), Nat.lt_wfRel.wf⟩ ⟨(· < ·), Nat.lt_wfRel.wf⟩).wf
  generalize hmu : c.mu = mu
  induction mu using wf.induction generalizing c with
  | _ mu ih =>
    obtain ⟨c2, h1, h2⟩ := Conf.Reach.step hP h i
    rcases (h.BI hP).down h2.evo h1 with ⟨_, h3⟩ | h3
    · refine ⟨0, c, rfl, fun cl hcl => ?_⟩
      obtain ⟨j, hj⟩ := List.mem_iff_getElem?.1 hcl
      by_cases e : j = i
      · subst e
        have latch : ∀ cl' ∈ c.calls, cl'.cloneLatch = none ∧ cl'.downLatch = none := by
          intro cl' hc'
          obtain ⟨j', hj'⟩ := List.mem_iff_getElem?.1 hc'
          by_cases e : j' = j
          · subst e
            rcases (h3 cl' hj').2 with ⟨r, hp⟩ | ⟨d, g, s, v, hp, _⟩ | ⟨d, g, v, hp, _⟩ <;> simp [Call.cloneLatch, Call.downLatch, hp]
          · obtain ⟨r, hp, _⟩ := fin_pc (hi j' cl' hj' e)
            simp [Call.cloneLatch, Call.downLatch, hp]
        obtain ⟨ht, ⟨r, hp⟩ | ⟨d, g, s, v, hp, hv, hg⟩ | ⟨d, g, v, hp, hv, hg⟩⟩ := h3 cl hj
        · simp [Call.fin, ht, hp, Pc.isDone]
        · obtain ⟨cl', h1, h2⟩ := (C35_closed_iff h hv).1.1 hg
          rw [(latch cl' h1).1] at h2; cases h2
        · obtain ⟨cl', h1, h2⟩ := (C35_closed_iff h hv).2.1 hg
          rw [(latch cl' h1).2] at h2; cases h2
      · exact hi j cl hj e
    · have others : ∀ (j : Nat) cl, c2.calls[j]? = some cl → j ≠ i → cl.fin = true := by
        intro j cl hj hne
        refine hi j cl ?_ hne
        cases CStep.of h1 with
        | none _ => exact hj
        | task => simpa [Conf.after, List.getElem?_set_ne (Ne.symm hne)] using hj
        | pc => simpa [Conf.after, List.getElem?_set_ne (Ne.symm hne)] using hj
      obtain ⟨n, c3, h4, h5⟩ := ih c2.mu (hmu ▸ h3) (.run h i h1) others rfl
      exact ⟨n + 1, c3, by rw [steps_ok h1]; exact h4, h5⟩

end Verif.Arc
