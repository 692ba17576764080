import Verif.Arc.Proofs.Mut1
/-!
# Reads are known to whoever gets mutable access later

A read through a slice is known to whoever holds a slice below it last, and through
its guard to the guards of all slices above it. `get_mut` looks at both counts.
-/

namespace Verif.Arc
open Verif.Spec (Side Slot Family Rng End)
open Verif.Rc
variable {α : Type}

/-- Whoever drops the last guard of `d`, or finds it dead, will know that access `e` has happened. -/
def KG (v : VConf α) (e d : Nat) : Prop := ∃ g, v.c.a.tgt (v.c.a.box d) = some g ∧ KnG v e g

/-- Who knows that item `s` of buffer `b` has been read (access number `e`). -/
structure Rd (v : VConf α) (e b s : Nat) : Prop where
  node : ∀ d, Cov v.c.a.b.sk d b s → Kn v e d ∨ KG v e d
  mid : ∀ (i : Nat) cl d, v.c.calls[i]? = some cl → d ∈ midB cl.pc → Cov v.c.a.b.sk d b s → Kn v e d ∨ e ∈ v.cv i
  ok : ∀ (i : Nat) cl d, v.c.calls[i]? = some cl → d ∈ okB cl.pc → Cov v.c.a.b.sk d b s → e ∈ v.cv i
  ent : ∀ k d g, v.c.get k = some ⟨.strong d g, true⟩ → Cov v.c.a.b.sk d b s → e ∈ v.hb k

section
variable {a a' : Arena α}

theorem midB_ref {pc : Pc α} {d : Nat} (h : d ∈ midB pc) : .ref d ∈ pcT pc := by
  cases pc <;> simp_all [midB, pcT]

theorem okB_ref {pc : Pc α} {d : Nat} (h : d ∈ okB pc) : .ref d ∈ pcT pc := by
  cases pc with
  | gmOpenC d g ok => cases ok <;> simp_all [okB, pcT]
  | gmOpenD d g ok => cases ok <;> simp_all [okB, pcT]
  | _ => simp [okB] at h

theorem midB_step {pc : Pc α} {n : Next α} (P : PStep a pc a' n) {d : Nat} (h : d ∈ midB n.pc) :
    ∃ g w, pc = .gm3 d g ∧ a.guard g = some w ∧ a.gS g = 1 ∧ a' = a := by
  cases P with
  | gm3 d' g v hv hc =>
    have : d = d' := by simpa [midB] using h
    subst this
    exact ⟨g, v, rfl, hv, hc, rfl⟩
  | _ => simp [midB] at h

theorem okB_step {pc : Pc α} {n : Next α} (P : PStep a pc a' n) {d : Nat} (h : d ∈ okB n.pc) :
    (∃ g, pc = .gm4 d g ∧ a.b.strong d = 1) ∨ d ∈ okB pc := by
  cases P with
  | gm4 d' g v hv hc =>
    have : d = d' := by simpa [okB] using h
    subst this
    exact .inl ⟨g, rfl, hc⟩
  | gmOpenC d' g ok v hv => cases ok <;> simp_all [okB]
  | _ => simp [okB] at h

theorem push_ok {pc : Pc α} {n : Next α} (P : PStep a pc a' n) {d g : Nat} (h : ⟨.strong d g, true⟩ ∈ n.push) : d ∈ okB pc := by
  cases P with
  | gmOpenD d' g' ok v hv =>
    simp only [List.mem_singleton, Ent.mk.injEq, Handle.strong.injEq] at h
    obtain ⟨⟨rfl, rfl⟩, rfl⟩ := h
    simp [okB]
  | _ => simp at h

end

section
variable {o : Ords} {v v' : VConf α} {i e b s : Nat} {cl cl' : Call α} {push : List Ent} {U R N : List AT} {V : View}

/-- Someone who holds the only reference to a slice and looks at the count knows. -/
theorem Kn.sole (B : v.c.BI) {d : Nat} (h : Kn v e d) (hi : v.c.calls[i]? = some cl) (hd : .ref d ∈ callT cl) (h1 : v.c.a.b.strong d = 1) :
    e ∈ v.m (.cnt d) ∨ e ∈ v.cv i := by
  have L := (B.heap.perm (Conf.T_perm hi)).good.ledger.s d
  rw [h1, aS_append, List.count_append] at L
  have hU := List.count_pos_iff.2 (ref_mem_aS hd)
  cases h with
  | cnt h => exact .inl h
  | ent hk hx h =>
    exfalso
    obtain ⟨t, ht, hx⟩ := List.mem_flatMap.1 hx
    have := List.count_pos_iff.2 (mem_aS (Conf.get_tok hk i ht) hx)
    omega
  | @call _ j clj hj hx h =>
    by_cases hij : j = i
    · subst hij; exact .inr h
    · exfalso
      obtain ⟨t, ht, hx⟩ := List.mem_flatMap.1 hx
      have := List.count_pos_iff.2 (mem_aS (Conf.rest_call hj hij ht) hx)
      omega
  | node hy hx h =>
    exfalso
    have h5 := nsum_le hy (B.heap.good.ledger.lt hy) (fun n => n.srefs.count d)
    have := List.count_pos_iff.2 hx
    omega

theorem KnG.sole (B : v.c.BI) {g : Nat} (h : KnG v e g) (hi : v.c.calls[i]? = some cl) (hg : .gd g ∈ callT cl) (h1 : v.c.a.gS g = 1) :
    e ∈ v.m (.gcnt g) ∨ e ∈ v.cv i := by
  have L := Arc.GI.strong B.gi g
  rw [h1, (aGd_perm (Conf.T_perm hi)).count_eq, aGd_append, List.count_append] at L
  have hU := List.count_pos_iff.2 (mem_aGd (x := g) hg (by simp))
  cases h with
  | cnt h => exact .inl h
  | ent hk hx h =>
    exfalso
    obtain ⟨t, ht, hx⟩ := List.mem_flatMap.1 hx
    have := List.count_pos_iff.2 (mem_aGd (Conf.get_tok hk i ht) hx)
    omega
  | @call _ j clj hj hx h =>
    by_cases hij : j = i
    · subst hij; exact .inr h
    · exfalso
      obtain ⟨t, ht, hx⟩ := List.mem_flatMap.1 hx
      have := List.count_pos_iff.2 (mem_aGd (Conf.rest_call hj hij ht) hx)
      omega
  | link hh hp h =>
    exfalso
    have := prefs_pos (Arc.GI.lt B.gi hh) hh hp
    omega

theorem VStp.kg (S : VStp o v v' i cl cl' push U R N V) (B : v.c.BI) (F : v.c.GFI) (P : PendI v) (ge : GEvo v.c.a v'.c.a) {d : Nat}
    (hd : d < v.c.a.b.sk.next) (hk : v.c.a.b.sk.kind d = .data) (h : KG v e d) : KG v' e d := by
  obtain ⟨g, h1, h2⟩ := h
  have same : v'.c.a.box d = v.c.a.box d → KG v' e d := fun hb =>
    ⟨g, by rw [hb, ge.tgt _ (F.gf.box d hd hk).1]; exact h1, S.monoG (S.gm B) B h2⟩
  rcases S.how with ⟨t, ts, new, ht, e2, rfl, rfl, rfl, rfl⟩ | ⟨n, ht, hs, rfl, rfl, rfl, rfl⟩
  · exact same (by rw [box_task e2])
  · rcases box_moves hs hd with h | ⟨b, og, fs, y, h3, h4, h5, h6⟩
    · exact same h
    · refine ⟨_, h5, S.holdG ?_ (.inl ?_)⟩
      · simp [h6, pcT]
      · refine S.in_V (P i cl b g e S.hi (by simp [h3, pendB]) (h4 ▸ h1) ?_)
        refine h2.dead B ?_
        have := (F.calls i cl S.hi).1
        rw [h3] at this
        exact this.2.1 g (h4 ▸ h1)

theorem Rd.step {w wr : Bool} (S : VStp o v v' i cl cl' push U R N V) (hc : o.cnt = true) (B : v.c.BI) (B' : v'.c.BI) (F : v.c.GFI) (P : PendI v)
    (ge : GEvo v.c.a v'.c.a) (I : Inf w v e wr b s) (D : Rd v e b s) : Rd v' e b s := by
  have ev := ge.evo.evo
  have Sh := B.heap.good.shape
  have Sh' := B'.heap.good.shape
  have hlt : ¬ v.c.a.b.sk.nbuf ≤ b := Nat.not_le.2 I.lt
  have live : ∀ {d}, Cov v'.c.a.b.sk d b s → ∃ n, v'.c.a.b.sk.node d = some n := fun ⟨u, hu, _⟩ => ⟨_, hu⟩
  have ref : ∀ {j : Nat} {clj : Call α} {d}, v.c.calls[j]? = some clj → .ref d ∈ pcT clj.pc → d < v.c.a.b.sk.next := fun hj h =>
    B.heap.lt (ref_mem_aS (Conf.call_tok hj (List.mem_append_right _ h)))
  refine ⟨?_, ?_, ?_, ?_⟩
  · intro d hcv
    obtain ⟨u, hu, hn⟩ := hcv
    cases hy : v.c.a.b.sk.node d with
    | none =>
      left
      obtain ⟨h1, h2⟩ := S.mv.newData d u hy hu
      rcases h2 b s hn with h | h | ⟨z, x, x', sd, h3, h4, h5, h6, h7⟩
      · exact absurd h hlt
      · refine S.hold h1 (.inl (S.in_V (I.call i cl S.hi ?_)))
        rw [aG_owners S.cT]
        rw [aG_append, owners_append]; omega
      · refine .node h4 ?_ (S.mono B ev (I.node z _ h3 ?_) ⟨_, h4⟩)
        · cases sd <;> simp [Node.srefs, h5]
        · rw [h7] at hn
          cases sd <;> simp only [Node.spans, DataV.ownSub, h6, owners_append, Option.isNone_none, if_true, owners_cons] <;> omega
    | some n =>
      have hlt := B.heap.good.ledger.lt hy
      have hcv : Cov v.c.a.b.sk d b s := Cov.evo' ev hlt Sh Sh' ⟨u, hu, hn⟩
      have hkd : v.c.a.b.sk.kind d = .data := by obtain ⟨u', hu', _⟩ := hcv; exact Sh.kinds _ _ hu'
      exact (D.node d hcv).imp (fun h => S.mono B ev h ⟨_, hu⟩) (fun h => S.kg B F P ge hlt hkd h)
  · intro j clj d hj hd hcv
    have old : ∀ clj', v.c.calls[j]? = some clj' → d ∈ midB clj'.pc → Kn v' e d ∨ e ∈ v'.cv j := by
      intro clj' h1 h2
      exact (D.mid j clj' d h1 h2 (hcv.evo' ev (ref h1 (midB_ref h2)) Sh Sh')).imp (fun h => S.mono B ev h (live hcv)) S.in_cv
    by_cases hij : j = i
    · subst hij
      rw [S.self] at hj; cases hj
      rcases S.how with ⟨t, ts, new, ht, e2, rfl, rfl, rfl, rfl⟩ | ⟨n, ht, hs, rfl, rfl, rfl, rfl⟩
      · exact old cl S.hi hd
      · obtain ⟨g, w, h1, hw, h2, h3⟩ := midB_step hs hd
        have hT : .ref d ∈ pcT cl.pc ∧ .gd g ∈ pcT cl.pc := by simp [h1, pcT]
        have hcv' := hcv.evo' ev (ref S.hi hT.1) Sh Sh'
        rcases D.node d hcv' with h | ⟨g', h4, h5⟩
        · exact .inl (S.mono B ev h (live hcv))
        · have ho : ofG v.c.a d g := by
            have := (F.calls j cl S.hi).1
            rw [h1] at this; exact this
          obtain ⟨u, hu, _⟩ := hcv'
          have h6 := F.gf.uniq g w _ hw (by rw [ho.2]; exact hu)
          rw [ho.2, h4] at h6
          cases h6
          right
          refine S.cv_V (.inl ?_)
          rcases h5.sole B S.hi (List.mem_append_right _ hT.2) h2 with h | h
          · rw [S.view]
            refine Acc.runs_acq (callAcc_store (by trivial)) (a := .load (.gcnt g) true) ?_ (.inl rfl) h
            simp [callAcc, ht, h1, pcAcc, hc, Acc.onWeak]
          · exact S.in_V h
    · exact old clj ((S.other hij).symm.trans hj) hd
  · intro j clj d hj hd hcv
    have old : ∀ clj', v.c.calls[j]? = some clj' → d ∈ okB clj'.pc → e ∈ v'.cv j := by
      intro clj' h1 h2
      exact S.in_cv (D.ok j clj' d h1 h2 (hcv.evo' ev (ref h1 (okB_ref h2)) Sh Sh'))
    by_cases hij : j = i
    · subst hij
      rw [S.self] at hj; cases hj
      rcases S.how with ⟨t, ts, new, ht, e2, rfl, rfl, rfl, rfl⟩ | ⟨n, ht, hs, rfl, rfl, rfl, rfl⟩
      · exact old cl S.hi hd
      · rcases okB_step hs hd with ⟨g, h1, h2⟩ | h
        · have hT : .ref d ∈ pcT cl.pc := by simp [h1, pcT]
          refine S.cv_V (.inl ?_)
          have hcv' := hcv.evo' ev (ref S.hi hT) Sh Sh'
          rcases D.mid j cl d S.hi (by simp [h1, midB]) hcv' with h | h
          · rcases h.sole B S.hi (List.mem_append_right _ hT) h2 with h | h
            · rw [S.view]
              refine Acc.runs_acq (callAcc_store (by trivial)) (a := .load (.cnt d) true) ?_ (.inl rfl) h
              simp [callAcc, ht, h1, pcAcc, hc, Acc.onWeak]
            · exact S.in_V h
          · exact S.in_V h
        · exact old cl S.hi h
    · exact old clj ((S.other hij).symm.trans hj) hd
  · intro k d g hk hcv
    rcases S.get hk with h | ⟨h1, h2⟩
    · rw [S.hb_old h]
      exact D.ent k d g h (hcv.evo' ev (B.heap.lt (ref_mem_aS (Conf.get_tok' h (by simp [entT])))) Sh Sh')
    · rcases S.how with ⟨t, ts, new, ht, e2, rfl, rfl, rfl, rfl⟩ | ⟨n, ht, hs, rfl, rfl, rfl, rfl⟩
      · cases h2
      · have h3 := push_ok hs h2
        exact S.hb_V h1 (.inl (S.in_V (D.ok i cl d S.hi h3 (hcv.evo' ev (ref S.hi (okB_ref h3)) Sh Sh'))))

theorem Rd.start {op : Op α} {X : View} (D : Rd v e b s) (h : v.start op X = some v') (ec : v.c.start op = some v'.c) : Rd v' e b s := by
  have S : VSta true v v' := .of h
  refine ⟨?_, ?_, ?_, ?_⟩
  · intro d hc
    rw [S.a] at hc
    refine (D.node d hc).imp S.kn fun ⟨g, h1, h2⟩ => ⟨g, by rw [S.a]; exact h1, S.knG h2⟩
  · intro i cl d hi hd hc
    rw [S.a] at hc
    rcases start_begin (.of ec) hi with h | h
    · rw [(S.call i cl h).2]
      exact (D.mid i cl d h hd hc).imp S.kn id
    · rw [h.2.1] at hd; cases hd
  · intro i cl d hi hd hc
    rw [S.a] at hc
    rcases start_begin (.of ec) hi with h | h
    · rw [(S.call i cl h).2]
      exact D.ok i cl d h hd hc
    · rw [h.2.2] at hd; cases hd
  · intro k d g hk hc
    rw [S.a] at hc
    rcases start_get (.of ec) hk with h | ⟨_, _, h⟩ | ⟨_, _, _, _, h⟩
    · rw [S.hb k (Conf.get_lt h)]
      exact D.ent k d g h hc
    · cases h
    · cases h

theorem Rd.grow (S : VGrow v v') (hG : v'.c.a.guard = v.c.a.guard) (hb : v'.c.a.box = v.c.a.box) (ht : v'.c.a.tgt = v.c.a.tgt)
    (D : Rd v e b s) : Rd v' e b s where
  node d hc := by
    rw [S.sk] at hc
    exact (D.node d hc).imp S.kn fun ⟨g, h1, h2⟩ => ⟨g, by rw [ht, hb]; exact h1, S.knG hG h2⟩
  mid i cl d hi hd hc := by
    rw [S.sk] at hc
    rw [S.cv]
    exact (D.mid i cl d (S.calls ▸ hi) hd hc).imp S.kn id
  ok i cl d hi hd hc := by
    rw [S.sk] at hc
    rw [S.cv]
    exact D.ok i cl d (S.calls ▸ hi) hd hc
  ent k d g hk hc := by
    rw [S.sk] at hc
    exact S.hb _ _ (D.ent k d g ((S.get k).symm.trans hk) hc)

/-! ## A new read -/

/-- Two slices that cover the same item are one below the other. -/
theorem cov_comparable {c : Conf α} (B : c.BI) {d d' : Nat} (hc : Cov c.a.b.sk d b s) (hc' : Cov c.a.b.sk d' b s) :
    (c.a.b.sk.lab d).up (c.a.b.sk.lab d') ∨ (c.a.b.sk.lab d').up (c.a.b.sk.lab d) := by
  obtain ⟨u, hu, hn⟩ := hc
  obtain ⟨u', hu', hn'⟩ := hc'
  obtain ⟨rfl, h1, h2⟩ := num_pos.1 hn
  obtain ⟨h0', h1', h2'⟩ := num_pos.1 hn'
  obtain ⟨y, x, h3, h4, h5⟩ := B.heap.good.owner hu (j := s) h1 h2
  obtain ⟨y', x', h3', h4', h5'⟩ := B.heap.good.owner hu' (j := s) h1' h2'
  have h0' : u'.buf = u.buf := h0'
  rw [h0'] at h5'
  have := owner_uniq B h3 h3' h5 h5'
  subst this
  exact Lab.up_comparable h4 h4'

/-- What is known of a slice is known of those below. -/
theorem Kn.lower (B : v.c.BI) {d x : Nat} {u w : DataV} (h : Kn v e d) (hd : v.c.a.b.sk.node d = some (.data u)) (hx : v.c.a.b.sk.node x = some (.data w))
    (hu : (v.c.a.b.sk.lab d).up (v.c.a.b.sk.lab x)) : Kn v e x := by
  generalize hn : v.c.a.b.sk.next - d = n
  induction n using Nat.strongRecOn generalizing d u with
  | ind n ih =>
    have S := B.heap.good.shape
    rcases Lab.up_cases hu with h1 | ⟨sd, h1⟩
    · rw [← S.dataUniq d u x w hd hx h1]; exact h
    · obtain ⟨c, hc⟩ := Option.isSome_iff_exists.1 (S.dataDown d u x w sd hd hx h1)
      obtain ⟨a1, a2, vc, a3⟩ := S.dataKid d u sd c hd hc
      have := B.heap.good.ledger.lt a3
      exact ih (v.c.a.b.sk.next - c) (by omega) (.node hd (by cases sd <;> simp [Node.srefs, hc]) h) a3 (a2 ▸ h1) rfl

/-- What is known through a guard is known through those above. -/
theorem KnG.above (B : v.c.BI) (F : v.c.GFI) {g' : Nat} {vg : GuardV} : v.c.a.guard g' = some vg → KnG v e g' → ∀ {d x : Nat} {u w : DataV},
    x = v.c.a.gOf g' → v.c.a.b.sk.node d = some (.data u) → v.c.a.b.sk.node x = some (.data w) →
    (v.c.a.b.sk.lab d).up (v.c.a.b.sk.lab x) → KG v e d := by
  induction g' using Nat.strongRecOn generalizing vg with
  | ind g' ih =>
    intro hg hk d x u w hx hd hw hu
    subst hx
    have S := B.heap.good.shape.toDShape
    by_cases hxd : v.c.a.b.sk.lab d = v.c.a.b.sk.lab (v.c.a.gOf g')
    · have := S.dataUniq _ _ _ _ hd hw hxd
      subst this
      exact ⟨g', F.gf.uniq g' vg _ hg hw, hk⟩
    · obtain ⟨q, u', sd, hq, hkq, hdq⟩ := parent_live S hd hw hu hxd
      have hpar := B.par.kid q u' sd _ hq hkq
      cases hp : vg.parent with
      | none =>
        have := F.gf.link2 g' vg q _ hg hp hw hpar
        rw [hq] at this; cases this
      | some p =>
        obtain ⟨h1, h2⟩ := F.gf.link1 g' vg p hg hp
        rw [hpar] at h2
        have h2 : q = v.c.a.gOf p := Option.some.inj h2
        have hpl : ∃ vp, v.c.a.guard p = some vp := by
          refine (Arc.GI.live B.gi p).1 ?_
          have h3 := Arc.GI.strong B.gi p
          have := prefs_pos (n := v.c.a.ng) (F.gf.lt g' vg hg) hg hp
          omega
        obtain ⟨vp, hvp⟩ := hpl
        exact ih p h1 hvp (.link hg hp hk) h2 hd hq hdq

/-- Reading through a handle. -/
theorem Rd.read (A : v.c.IA true) {k : Nat} {en : Ent} (hk : v.c.get k = some en) (hc : en.Covers v.c b s) (he : e ∈ v.hb k ∨ e ∈ v.ha k)
    (hw : en.mutb = true → e ∈ v.hb k) : Rd v e b s := by
  have B := A.bi
  have F := A.gf
  rcases hc with ⟨d', g', hd, hc'⟩ | ⟨r, hr, hn⟩
  · obtain ⟨h, m⟩ := en
    simp only at hd; subst hd
    have kd : Kn v e d' := .ent hk (by simp [entT, aS]) he
    have kg : KnG v e g' := .ent hk (by simp [entT, aGd]) he
    have ho := F.ents k _ hk
    obtain ⟨w, hw', _⟩ := BI_gd B.gi (Conf.get_tok' hk (t := .gd g') (by simp [entT]))
    have hT : .ref d' ∈ v.c.T := Conf.get_tok' hk (by simp [entT])
    refine ⟨?_, ?_, ?_, ?_⟩
    · intro d hcv
      obtain ⟨u, hu, _⟩ := id hcv
      obtain ⟨u', hu', _⟩ := id hc'
      rcases cov_comparable B hcv hc' with h | h
      · exact .inr (kg.above B F hw' ho.2.symm hu hu' h)
      · exact .inl (kd.lower B hu' hu h)
    · intro i cl d hi hd hcv
      left
      obtain ⟨u, hu, _⟩ := id hcv
      obtain ⟨u', hu', _⟩ := id hc'
      rcases cov_comparable B hcv hc' with h | h
      · have hm : ∃ g, midP true cl.pc d g := by
          cases hp : cl.pc <;> simp_all [midB, midP]
        obtain ⟨g, hm⟩ := hm
        have h2 := (A.ph.mid i cl d g hi hm).1 d' hT (B.heap.good.shape.kinds _ _ hu') h
        exact kd.lower B hu' hu (h2 ▸ Lab.up_refl _)
      · exact kd.lower B hu' hu h
    · intro i cl d hi hd hcv
      have E := A.ph.win i cl d hi (by
        revert hd
        cases hp : cl.pc with
        | gmOpenC d' g ok => cases ok <;> simp [okB, winL]
        | gmOpenD d' g ok => cases ok <;> simp [okB, winL]
        | _ => simp [okB])
      have := E.alone B hT hcv hc'
      subst this
      exact absurd hk (excl_call E hi (List.mem_append_right _ (okB_ref hd)) k g' m)
    · intro k2 d g hk2 hcv
      have E := A.ph.ent rfl k2 d g hk2
      have := E.alone B hT hcv hc'
      subst this
      have := excl_ent E hk2 hk
      subst this
      rw [hk2] at hk; cases hk
      exact hw rfl
  · have ho : 0 < owners (aG (entT en)) b s := by rw [entT_uniq hr]; simpa [aG] using hn
    have no : ∀ {d}, ¬ Cov v.c.a.b.sk d b s := owner_cov B (own_ent hk ho)
    exact ⟨fun _ h => absurd h no, fun _ _ _ _ _ h => absurd h no, fun _ _ _ _ _ h => absurd h no, fun _ _ _ _ h => absurd h no⟩

end
end Verif.Arc
