import Verif.Arc.Proofs.Cover
import Verif.Arc.Spec
/-!
# Exclusive access

If a guard is counted once, nobody holds data below the guarded slice; and as long as its
clone gate is closed nobody will.
-/

namespace Verif.Arc
open Verif.Spec (Side Slot Family Rng End)
open Verif.Rc
variable {α : Type}

/-- Nobody holds data strictly below `d`. -/
def NoDesc (a : Arena α) (T : List AT) (d : Nat) : Prop :=
  ∀ x, .ref x ∈ T → a.b.sk.kind x = .data → (a.b.sk.lab d).up (a.b.sk.lab x) → a.b.sk.lab x = a.b.sk.lab d

/-- Only one reference to `d` and its items is left. -/
structure Excl (a : Arena α) (T : List AT) (d : Nat) : Prop where
  kind : a.b.sk.kind d = .data
  tok : (aS T).count d = 1
  link : ∀ y w s, a.b.sk.node y = some (.data w) → w.kids s ≠ some d
  desc : NoDesc a T d

theorem NoDesc.perm {a : Arena α} {T T' : List AT} {d : Nat} (h : NoDesc a T d) (p : T.Perm T') : NoDesc a T' d :=
  fun x hx => h x (p.mem_iff.2 hx)

theorem aS_perm {T T' : List AT} (p : T.Perm T') : (aS T).Perm (aS T') := p.flatMap_right _

theorem Excl.perm {a : Arena α} {T T' : List AT} {d : Nat} (h : Excl a T d) (p : T.Perm T') : Excl a T' d :=
  ⟨h.kind, by rw [← (aS_perm p).count_eq]; exact h.tok, h.link, h.desc.perm p⟩

section
variable {a a' : Arena α}

theorem ref_mem_aS {T : List AT} {x : Nat} (h : .ref x ∈ T) : x ∈ aS T := mem_aS h (by simp)

/-- Data is held by references only. -/
theorem HInv.ref_of {T : List AT} {d : Nat} {h : Heap α} (I : HInv h T) (hk : h.sk.kind d = .data) (hd : d ∈ aS T) : .ref d ∈ T := by
  obtain ⟨t, h1, h2⟩ := List.mem_flatMap.1 hd
  cases t with
  | ref x => simp only [AT.S, List.mem_singleton] at h2; subst h2; exact h1
  | reg r =>
    have : r.alloc = some d := by simpa using h2
    have := I.good.shape.kinds _ _ ((I.regs r h1).1 d this)
    rw [hk] at this; cases this
  | _ => simp at h2

theorem Excl.strong {T : List AT} {d : Nat} (I : HInv a.b T) (h : Excl a T d) : a.b.strong d = 1 := by
  have h1 := I.good.ledger.s d
  rw [h.tok] at h1
  have : nsum a.b.sk (fun n => n.srefs.count d) = 0 := by
    refine Nat.eq_zero_of_not_pos fun hpos => ?_
    obtain ⟨y, n, _, hy, hm⟩ := nsum_pos hpos
    have hm := List.count_pos_iff.1 hm
    rcases I.only y n hy with hk | hk
    · obtain ⟨w, rfl⟩ := data_of_kind hk
      simp only [Node.srefs, List.mem_append, Option.mem_toList] at hm
      rcases hm with (hm | hm) | hm
      · exact h.link y w .L hy hm
      · exact h.link y w .R hy hm
      · have := I.good.shape.kinds _ _ (I.good.shape.dataAlloc y w d hy hm)
        rw [h.kind] at this; cases this
    · cases n <;> simp [Node.kind] at hk
      simp [Node.srefs] at hm
  omega

theorem Excl.of {T : List AT} {d : Nat} (I : HInv a.b T) (hk : a.b.sk.kind d = .data) (hd : .ref d ∈ T) (h1 : a.b.strong d = 1)
    (hn : NoDesc a T d) : Excl a T d := by
  obtain ⟨A, B, rfl⟩ := List.append_of_mem hd
  have p : (A ++ .ref d :: B).Perm (.ref d :: (A ++ B)) := List.perm_middle
  have I' := I.perm p
  have g : Good a.b (d :: aS (A ++ B)) [] (aG (A ++ B)) := I'.good
  refine ⟨hk, ?_, fun y w s hy he => ?_, hn⟩
  · rw [(aS_perm p).count_eq]
    show List.count d (d :: aS (A ++ B)) = 1
    rw [List.count_cons_self, List.count_eq_zero.2 (g.ledger.no_tok h1)]
  · refine g.ledger.no_ref h1 hy ?_
    cases s <;> simp [Node.srefs, he]

/-- What a call has to respect when it makes a step. -/
structure Move (a a' : Arena α) (U U' K : List AT) (bh : Option Handle) (pc : Pc α) : Prop where
  I : HInv a.b (U ++ K)
  I' : HInv a'.b (U' ++ K)
  P : ParOK a
  P' : ParOK a'
  ev : AEvo a a'
  org : ∀ x, .ref x ∈ U' → a'.b.sk.kind x = .data → Org a a' U bh pc x
  bor : ∀ z g, bh = some (.strong z g) → .ref z ∈ K ∧ a.b.sk.kind z = .data

theorem NoDesc.move {U U' K : List AT} {bh : Option Handle} {pc : Pc α} {d : Nat} (M : Move a a' U U' K bh pc)
    (hk : a.b.sk.kind d = .data) (hd : .ref d ∈ K) (h : NoDesc a (U ++ K) d) (hb : ∀ g, bh = some (.strong d g) → ¬ past pc) :
    NoDesc a' (U' ++ K) d := by
  obtain ⟨I, I', P, P', ev, org, bor⟩ := M
  have S := I.good.shape.toDShape
  have hdl := I.lt (ref_mem_aS (List.mem_append_right U hd))
  obtain ⟨vd, hvd⟩ := I.data (ref_mem_aS (List.mem_append_right U hd)) hk
  have old : ∀ x, .ref x ∈ U ++ K → a'.b.sk.kind x = .data → (a'.b.sk.lab d).up (a'.b.sk.lab x) → a'.b.sk.lab x = a'.b.sk.lab d := by
    intro x hx hkx hu
    have hxl := I.lt (ref_mem_aS hx)
    rw [ev.evo.kind x hxl] at hkx
    rw [ev.evo.lab d hdl, ev.evo.lab x hxl] at hu ⊢
    exact h x hx hkx hu
  -- a child of something held is not below `d`, unless the child of `d`
  have kid : ∀ x z s, .ref z ∈ U ++ K → a.b.sk.kind z = .data → a'.b.sk.lab x = (a'.b.sk.lab z).child s → z ≠ d →
      (a'.b.sk.lab d).up (a'.b.sk.lab x) → a'.b.sk.lab x = a'.b.sk.lab d := by
    intro x z s hz hkz hl hne hu
    rw [hl] at hu
    rcases Lab.up_child_iff.1 hu with h1 | h1
    · rw [hl, h1]
    · obtain ⟨vz, hvz⟩ := I.data (ref_mem_aS hz) hkz
      have hzl := I.lt (ref_mem_aS hz)
      rw [ev.evo.lab d hdl, ev.evo.lab z hzl] at h1
      exact absurd (S.dataUniq z vz d vd hvz hvd (h z hz hkz h1)) hne
  intro x hx hkx hu
  rcases List.mem_append.1 hx with hx | hx
  · cases org x hx hkx with
    | old h1 => exact old x (List.mem_append_left _ h1) hkx hu
    | bor g h1 => exact old x (List.mem_append_right _ (bor x g h1).1) hkx hu
    | kid z g v s hbh hp hz hkk =>
      obtain ⟨h1, h2⟩ := bor z g hbh
      have hl := (I'.good.shape.toDShape.dataKid z v s x hz hkk).2.1
      exact kid x z s (List.mem_append_right _ h1) h2 hl (fun e => hb g (e ▸ hbh) hp) hu
    | par w hw hkw hp =>
      obtain ⟨_, h2, _, s, h4⟩ := P.par w x hp
      rw [ev.evo.lab d hdl, ev.evo.lab x h2] at hu
      have h5 := h w (List.mem_append_left _ hw) hkw (by rw [h4]; exact Lab.up_trans hu (Lab.up_child _ _))
      rw [h4] at h5
      rw [← h5] at hu
      exact absurd hu (Lab.not_child_up _ _)
    | dead w v s hw h1 hv hkk =>
      have hl := (S.dataKid w v s x hv hkk).2.1
      obtain ⟨_, _, vx, hvx⟩ := S.dataKid w v s x hv hkk
      have hxl := I.base.lt hvx
      have hwl := I.base.lt hv
      refine kid x w s (List.mem_append_left _ hw) (I.base.kinds w _ hv) ?_ ?_ hu
      · rw [ev.evo.lab x hxl, ev.evo.lab w hwl]; exact hl
      · rintro rfl
        have h2 := I.good.ledger.s w
        have h3 := List.count_pos_iff.2 (ref_mem_aS hw)
        have h4 := List.count_pos_iff.2 (ref_mem_aS hd)
        simp only [aS_append, List.count_append] at h2
        omega
    | root h1 h2 _ =>
      obtain ⟨h3, h4⟩ := hu
      rw [h2] at h4
      have h5 := List.eq_nil_of_suffix_nil h4
      generalize a'.b.sk.lab x = l1, a'.b.sk.lab d = l2 at *
      cases l1; cases l2; simp_all
  · exact old x (List.mem_append_right _ hx) hkx hu

theorem Excl.move {U U' K : List AT} {bh : Option Handle} {pc : Pc α} {d : Nat} (M : Move a a' U U' K bh pc)
    (hd : .ref d ∈ K) (h : Excl a (U ++ K) d) (hb : ∀ g, bh ≠ some (.strong d g)) :
    Excl a' (U' ++ K) d := by
  have hdesc := NoDesc.move M h.kind hd h.desc fun g e => absurd e (hb g)
  obtain ⟨I, I', P, P', ev, org, bor⟩ := M
  have hdl := I.lt (ref_mem_aS (List.mem_append_right U hd))
  have hk' : a'.b.sk.kind d = .data := by rw [ev.evo.kind d hdl]; exact h.kind
  have hc := h.tok
  have hc2 := List.count_pos_iff.2 (ref_mem_aS hd)
  simp only [aS_append, List.count_append] at hc
  refine ⟨hk', ?_, fun y w s hy he => ?_, hdesc⟩
  · simp only [aS_append, List.count_append]
    have : (aS U').count d = 0 := by
      refine List.count_eq_zero.2 fun hm => ?_
      have hm' : .ref d ∈ U' := by
        obtain ⟨t, h1, h2⟩ := List.mem_flatMap.1 hm
        cases t with
        | ref x => simp only [AT.S, List.mem_singleton] at h2; subst h2; exact h1
        | reg r =>
          have h3 : r.alloc = some d := by simpa using h2
          have := I'.good.shape.kinds _ _ ((I'.regs r (List.mem_append_left _ h1)).1 d h3)
          rw [hk'] at this; cases this
        | _ => simp at h2
      cases org d hm' hk' with
      | old h1 => have := List.count_pos_iff.2 (ref_mem_aS h1); omega
      | bor g h1 => exact hb g h1
      | kid z g v s hbh hp hz hkk =>
        obtain ⟨w, h1, h2⟩ := ev.evo.link z v s d hz hkk hdl
        exact h.link z w s h1 h2
      | par w hw hkw hp =>
        obtain ⟨_, h2, _, s, h4⟩ := P.par w d hp
        have h5 := h.desc w (List.mem_append_left _ hw) hkw (by rw [h4]; exact Lab.up_child _ _)
        rw [h4] at h5
        exact Lab.child_ne _ _ h5
      | dead w v s hw h1 hv hkk => exact h.link w v s hv hkk
      | root h1 h2 _ => omega
    omega
  · obtain ⟨w0, h1, h2⟩ := ev.evo.link y w s d hy he hdl
    exact h.link y w0 s h1 h2

end

/-! ## A guard counted once -/

section
variable {c : Conf α}

theorem Chain.up {a : Arena α} (P : ParOK a) {fs : List GFrame} {x y : Nat} (h : Chain a x fs y) :
    (a.b.sk.lab x).up (a.b.sk.lab y) ∧ ∀ f ∈ fs, (a.b.sk.lab f.p).up (a.b.sk.lab y) := by
  induction fs generalizing x with
  | nil => obtain ⟨rfl, _⟩ := h; exact ⟨Lab.up_refl _, by simp⟩
  | cons f fs ih =>
    obtain ⟨rfl, h2, h3⟩ := h
    obtain ⟨h4, h5⟩ := ih h3
    obtain ⟨_, _, _, s, h6⟩ := P.par _ _ h2
    have h7 : (a.b.sk.lab f.p).up (a.b.sk.lab y) := Lab.up_trans (by rw [h6]; exact Lab.up_child _ _) h4
    refine ⟨h7, fun f' hf' => ?_⟩
    rcases List.mem_cons.1 hf' with rfl | hf'
    · exact h7
    · exact h5 f' hf'

theorem not_fin {cl : Call α} (h : ∀ r, cl.pc ≠ .done r) : cl.fin = false := by
  cases hf : cl.fin with
  | false => rfl
  | true => obtain ⟨r, h1, _⟩ := fin_pc hf; exact absurd h1 (h r)

/-- `x` is the subslice an `upgrade` in flight is about, or above it. -/
def Conf.Upping (c : Conf α) (x : Nat) : Prop := ∃ (i : Nat) (cl : Call α) (u : Nat), c.calls[i]? = some cl ∧ cl.fin = false ∧
  cl.upOn = some u ∧ u < c.a.b.sk.next ∧ (c.a.b.sk.lab x).up (c.a.b.sk.lab u)

/-- Everything that is held is covered by a guard, or hangs loose, or is next to something borrowed,
or is being upgraded. -/
theorem Conf.covered (B : c.BI) (F : c.GFI) (C : c.CovI) {x : Nat} (hx : .ref x ∈ c.T) (hk : c.a.b.sk.kind x = .data) :
    (∃ g, .gd g ∈ c.T ∧ ofG c.a x g) ∨ (∃ y, (c.a.b.sk.lab x).up (c.a.b.sk.lab y) ∧ y < c.a.b.sk.next ∧
      (Loose c.a y ∨ ∃ k z gz b, c.get k = some ⟨.strong z gz, b⟩ ∧ (y = z ∨ c.a.par y = some z))) ∨ c.Upping x := by
  have yc : ∀ {cl : Call α} {y}, yC c.a (cl.bh c) y → y < c.a.b.sk.next → (c.a.b.sk.lab x).up (c.a.b.sk.lab y) →
      ∃ y, (c.a.b.sk.lab x).up (c.a.b.sk.lab y) ∧ y < c.a.b.sk.next ∧
        (Loose c.a y ∨ ∃ k z gz b, c.get k = some ⟨.strong z gz, b⟩ ∧ (y = z ∨ c.a.par y = some z)) := by
    intro cl y h1 h2 h3
    refine ⟨y, h3, h2, ?_⟩
    rcases h1 with h1 | ⟨z, gz, h4, h5⟩
    · exact .inl h1
    · obtain ⟨k, b, _, h6⟩ := Conf.bh_get h4
      exact .inr ⟨k, z, gz, b, h6, h5⟩
  have gph : ∀ {cl : Call α} {w fs y}, Chain c.a w fs y → yC c.a (cl.bh c) y → (x = y ∨ .ref x ∈ frT fs) →
      ∃ y, (c.a.b.sk.lab x).up (c.a.b.sk.lab y) ∧ y < c.a.b.sk.next ∧
        (Loose c.a y ∨ ∃ k z gz b, c.get k = some ⟨.strong z gz, b⟩ ∧ (y = z ∨ c.a.par y = some z)) := by
    intro cl w fs y h1 h2 h3
    refine yc h2 h1.endp.2 ?_
    rcases h3 with rfl | h3
    · exact Lab.up_refl _
    · obtain ⟨f, hf, e⟩ := List.mem_map.1 h3
      cases e
      exact (h1.up B.par).2 f hf
  rcases List.mem_append.1 hx with hx | hx
  · obtain ⟨o, h1, h2⟩ := List.mem_flatMap.1 hx
    cases o with
    | none => simp [slotT] at h2
    | some e =>
      obtain ⟨k, hk⟩ := List.getElem?_of_mem h1
      have hk : c.get k = some e := by simp [Conf.get, hk]
      have hg := F.ents k e hk
      cases hh : e.h with
      | strong d g =>
        rw [hh] at hg
        have : x = d := by simpa [slotT, entT, hh] using h2
        subst this
        exact .inl ⟨g, Conf.get_tok' hk (by simp [entT, hh]), hg⟩
      | weak d g => simp [slotT, entT, hh] at h2
      | uniq r => simp [slotT, entT, hh] at h2
  · obtain ⟨cl, h1, h2⟩ := List.mem_flatMap.1 hx
    obtain ⟨i, hi⟩ := List.getElem?_of_mem h1
    obtain ⟨hp, _⟩ := B.calls i cl hi
    obtain ⟨hg, hgt⟩ := F.calls i cl hi
    obtain ⟨hc, hct⟩ := C i cl hi
    have gch : ∀ {w fs y}, Chain c.a w fs y → cl.upOn = some y ∨ yC c.a (cl.bh c) y → cl.fin = false → (x = y ∨ .ref x ∈ frT fs) →
        (∃ y, (c.a.b.sk.lab x).up (c.a.b.sk.lab y) ∧ y < c.a.b.sk.next ∧
          (Loose c.a y ∨ ∃ k z gz b, c.get k = some ⟨.strong z gz, b⟩ ∧ (y = z ∨ c.a.par y = some z))) ∨ c.Upping x := by
      intro w fs y h1 h2 hf h3
      rcases h2 with h2 | h2
      · refine .inr ⟨i, cl, y, hi, hf, h2, h1.endp.2, ?_⟩
        rcases h3 with rfl | h3
        · exact Lab.up_refl _
        · obtain ⟨f, hf, e⟩ := List.mem_map.1 h3
          cases e
          exact (h1.up B.par).2 f hf
      · exact .inl (gph (cl := cl) h1 h2 h3)
    have tok : ∀ t, t ∈ callT cl → t ∈ c.T := fun t ht => Conf.call_tok hi ht
    have tokp : ∀ t, t ∈ pcT cl.pc → t ∈ c.T := fun t ht => tok t (List.mem_append_right _ ht)
    rcases List.mem_append.1 h2 with h2 | h2
    · rcases ref_taskT h2 with h3 | ⟨g, h3⟩
      · rcases hct _ h3 hk with h4 | ⟨g, h4, h5⟩ | ⟨u, h4, h5, h6⟩ | ⟨y, h4, _, h5, h6⟩
        · exact .inr (.inl ⟨x, Lab.up_refl _, B.heap.lt (ref_mem_aS (tok _ (List.mem_append_left _ h2))), .inl h4⟩)
        · exact .inl ⟨g, tokp _ h4, h5⟩
        · refine .inr (.inr ⟨i, cl, u, hi, ?_, h4, h5, h6⟩)
          cases hf : cl.fin with
          | false => rfl
          | true => obtain ⟨_, _, h7⟩ := fin_pc hf; rw [h7] at h3; cases h3
        · exact .inr (.inl (yc h6 h4 h5))
      · exact .inl ⟨g, tok _ (List.mem_append_left _ (List.mem_flatMap.2 ⟨_, h3, by simp [ataskT]⟩)), hgt _ h3⟩
    · cases hpc : cl.pc with
      | cl2 d g =>
        rw [hpc] at hp h2
        have hp : cl.bh c = some (.strong d g) := hp
        have : x = d := by simpa [pcT] using h2
        subst this
        obtain ⟨k, b, _, h6⟩ := Conf.bh_get hp
        exact .inl ⟨g, Conf.get_tok' h6 (by simp [entT]), F.ents k _ h6⟩
      | gLoad w fs y =>
        rw [hpc] at hp hc h2
        exact .inr (gch hp hc (not_fin (by simp [hpc])) (by simpa [pcT] using h2))
      | gTry w b o fs y =>
        rw [hpc] at hp hc h2
        exact .inr (gch hp hc (not_fin (by simp [hpc])) (by simpa [pcT] using h2))
      | gPar w b fs y =>
        rw [hpc] at hp hc h2
        exact .inr (gch hp hc (not_fin (by simp [hpc])) (by simpa [pcT] using h2))
      | gCas w b o fs y =>
        rw [hpc] at hp hc h2
        exact .inr (gch hp hc (not_fin (by simp [hpc])) (by simpa [pcT] using h2))
      | gRet g fs y =>
        rw [hpc] at hp hc h2
        obtain ⟨w, hp⟩ := hp
        exact .inr (gch hp hc (not_fin (by simp [hpc])) (by simpa [pcT] using h2))
      | gm0 d g | gm1 d g | gm2 d g | gm3 d g | gm4 d g | gmOpenC d g _ | gmOpenD d g _ | im0 d g | im1 d g | im2 d g | imOpen d g =>
        rw [hpc] at hg h2
        have : x = d := by simpa [pcT] using h2
        subst this
        exact .inl ⟨g, tokp _ (by simp [hpc, pcT]), hg⟩
      | imFg todo g r acc =>
        rw [hpc] at hc h2
        have h2' : .ref x ∈ todo.map fgT := by simpa [pcT] using h2
        obtain ⟨f, hf, e⟩ := List.mem_map.1 h2'
        cases f with
        | val w => cases e
        | kid c0 => cases e; exact .inr (.inl ⟨x, Lab.up_refl _, B.heap.lt (ref_mem_aS (tokp (.ref x) (by rw [hpc]; exact h2))), .inl (hc x hf)⟩)
      | _ => rw [hpc] at h2; simp [pcT] at h2

end
end Verif.Arc
