import Verif.Arc.Proofs.Excl
/-!
# `get_mut` and `into_mut` step by step

As long as no `WeakSlice` of something below is upgraded meanwhile: after the strong count of the guard has been found
to be 1, nobody holds data below, and nobody can get it as long as the clone gate is closed;
after the strong count of the data has been found to be 1, the access is exclusive.
-/

namespace Verif.Arc
open Verif.Spec (Side Slot Family Rng End)
open Verif.Rc
variable {α : Type}

/-- The data a call knows to have exclusively. (In this file `b` says whether `get_mut` is
considered besides `into_mut`.) -/
def winL (b : Bool) : Pc α → List Nat
  | .gmOpenC d _ true | .gmOpenD d _ true => if b then [d] else []
  | .imFg todo _ _ _ => todo.filterMap fun | .kid c => some c | .val _ => none
  | _ => []

/-- The strong count of the guard has been found to be 1, that of the data is next. -/
def midP (b : Bool) (pc : Pc α) (d g : Nat) : Prop := b = true ∧ pc = .gm4 d g ∨ pc = .im2 d g

structure Conf.PH (b : Bool) (c : Conf α) : Prop where
  mid : ∀ (i : Nat) cl d g, c.calls[i]? = some cl → midP b cl.pc d g → NoDesc c.a c.T d ∧
    ∀ (j : Nat) clj g', c.calls[j]? = some clj → clj.bh c = some (.strong d g') → ¬ past clj.pc
  win : ∀ (i : Nat) cl d, c.calls[i]? = some cl → d ∈ winL b cl.pc → Excl c.a c.T d
  ent : b = true → ∀ k d g, c.get k = some ⟨.strong d g, true⟩ → Excl c.a c.T d
  bor : ∀ (i : Nat) cl k, c.calls[i]? = some cl → cl.borrow = some k → k < c.hs.length ∧ ∀ d g, c.get k ≠ some ⟨.strong d g, true⟩

/-- The program counter fits the call. -/
def opOK (a : Arena α) (cl : Call α) : Prop :=
  match cl.pc with
  | .gm0 d _ | .gm1 d _ | .gm2 d _ | .gm3 d _ | .gm4 d _ | .gmOpenC d _ _ | .gmOpenD d _ _ => cl.op.isGetMut = true ∧ cl.on = some d
  | .im0 d _ | .im1 d _ | .im2 d _ | .imOpen d _ => cl.op.isIntoMut = true ∧ cl.on = some d
  | .imFg todo _ _ _ => cl.op.isIntoMut = true ∧ ∃ d, cl.on = some d ∧ d < a.b.sk.next ∧
      ∀ x, .kid x ∈ todo → x < a.b.sk.next ∧ (a.b.sk.lab d).up (a.b.sk.lab x) ∧ a.b.sk.lab d ≠ a.b.sk.lab x
  | .imGate _ _ _ | .imOk _ _ => cl.op.isIntoMut = true
  | .up d => cl.op.isUpgrade = true ∧ cl.on = d
  | _ => True

/-- While an `upgrade` is running, no `into_mut` is running above (and no `get_mut` above or on the same subslice). -/
structure Conf.Clear (b : Bool) (c : Conf α) : Prop where
  ops : ∀ (i : Nat) cl, c.calls[i]? = some cl → opOK c.a cl
  lt : ∀ (i : Nat) cl d, c.calls[i]? = some cl → cl.on = some d → d < c.a.b.sk.next
  calls : ∀ (i : Nat) cl u (j : Nat) clj d, c.calls[i]? = some cl → cl.fin = false → cl.upOn = some u →
    c.calls[j]? = some clj → clj.fin = false → clj.on = some d → (c.a.b.sk.lab d).up (c.a.b.sk.lab u) →
    (clj.op.isIntoMut = true → c.a.b.sk.lab u = c.a.b.sk.lab d) ∧ (b = true → clj.op.isGetMut = false)
  ents : ∀ (i : Nat) cl u k d g, c.calls[i]? = some cl → cl.fin = false → cl.upOn = some u → b = true →
    c.get k = some ⟨.strong d g, true⟩ → ¬ (c.a.b.sk.lab d).up (c.a.b.sk.lab u)

theorem winL_ref {b : Bool} {pc : Pc α} {d : Nat} (h : d ∈ winL b pc) : .ref d ∈ pcT pc := by
  cases pc with
  | gmOpenC d g ok => cases ok <;> cases b <;> simp_all [winL, pcT]
  | gmOpenD d g ok => cases ok <;> cases b <;> simp_all [winL, pcT]
  | imFg todo g r acc =>
    simp only [winL, List.mem_filterMap] at h
    obtain ⟨f, h1, h2⟩ := h
    cases f with
    | val w => cases h2
    | kid c =>
      cases h2
      simp only [pcT, List.mem_cons, List.mem_append, List.mem_map]
      exact .inr (.inr (.inr ⟨.kid d, h1, rfl⟩))
  | _ => simp [winL] at h

theorem mem_winL {b : Bool} {todo : List Fg} {g : Nat} {r : Reg} {acc : List Span} {d : Nat} :
    d ∈ winL b (Pc.imFg todo g r acc : Pc α) ↔ .kid d ∈ todo := by
  simp only [winL, List.mem_filterMap]
  constructor
  · rintro ⟨f, h1, h2⟩
    cases f <;> cases h2
    exact h1
  · exact fun h => ⟨_, h, rfl⟩

section
variable {c : Conf α}

/-- A call that finds its guard counted once: there is no other handle to this slice, and no guard
of anything below. -/
theorem Conf.lonely_guards (B : c.BI) (F : c.GFI) {i : Nat} {cl : Call α} (hi : c.calls[i]? = some cl) {d g : Nat}
    (hd : .ref d ∈ callT cl) (hg : .gd g ∈ callT cl) (ho : ofG c.a d g) (hk : c.a.b.sk.kind d = .data) (h1 : c.a.gS g = 1) :
    (∀ k g' b, c.get k ≠ some ⟨.strong d g', b⟩) ∧
    ∀ g' x, .gd g' ∈ c.T → ofG c.a x g' → .ref x ∈ c.T → c.a.b.sk.kind x = .data → (c.a.b.sk.lab d).up (c.a.b.sk.lab x) →
      c.a.b.sk.lab x = c.a.b.sk.lab d := by
  have S := B.heap.good.shape.toDShape
  obtain ⟨vd, hvd⟩ := B.heap.data (ref_mem_aS (Conf.call_tok hi hd)) hk
  have hgT : .gd g ∈ c.T := Conf.call_tok hi hg
  obtain ⟨hcount, hno⟩ := GI.lonely B.gi F.gf h1 (mem_aGd (x := g) hgT (by simp))
  obtain ⟨vg, hvg, _⟩ := BI_gd B.gi hgT
  -- the only guard of `d`
  have uni : ∀ g' v', c.a.guard g' = some v' → c.a.gOf g' = d → g' = g := fun g' v' h e =>
    F.gf.unique h hvg (by rw [e, ho.2]) (n := .data vd) (by rw [e]; exact hvd)
  have noent : ∀ k g' b, c.get k ≠ some ⟨.strong d g', b⟩ := by
    intro k g' b hk
    have hgk := F.ents k _ hk
    obtain ⟨v', hv', _⟩ := BI_gd B.gi (Conf.get_tok' hk (t := .gd g') (by simp [entT]))
    have := uni g' v' hv' hgk.2
    subst this
    have h2 : .gd g' ∈ c.rest i := Conf.get_tok hk i (by simp [entT])
    have h3 := (aGd_perm (Conf.T_perm hi)).count_eq g'
    have h4 := List.count_pos_iff.2 (mem_aGd (x := g') hg (by simp))
    have h5 := List.count_pos_iff.2 (mem_aGd (x := g') h2 (by simp))
    rw [aGd_append, List.count_append] at h3
    omega
  -- no guard strictly below
  have below : ∀ g' x, .gd g' ∈ c.T → ofG c.a x g' → .ref x ∈ c.T → c.a.b.sk.kind x = .data → (c.a.b.sk.lab d).up (c.a.b.sk.lab x) →
      c.a.b.sk.lab x = c.a.b.sk.lab d := by
    intro g' x hg' ho' hx hkx hu
    refine Decidable.byContradiction fun hne => ?_
    obtain ⟨v', hv', _⟩ := BI_gd B.gi hg'
    obtain ⟨w, hw⟩ := B.heap.data (ref_mem_aS hx) hkx
    obtain ⟨g1, v1, g2, e1, e2, e3, _⟩ := guard_chain S F.gf B.par B.gi hv' ho'.2.symm hvd hw hu (fun e => hne e.symm)
    have hlive : ∃ v2, c.a.guard g2 = some v2 := by
      refine (Arc.GI.live B.gi g2).1 ?_
      have h3 := Arc.GI.strong B.gi g2
      have := prefs_pos (n := c.a.ng) (F.gf.lt g1 v1 e1) e1 e2
      omega
    obtain ⟨v2, hv2⟩ := hlive
    have := uni g2 v2 hv2 e3
    subst this
    exact hno g1 v1 e1 e2
  exact ⟨noent, below⟩

/-- A call that finds its guard counted once. -/
theorem Conf.lonely (B : c.BI) (F : c.GFI) (C : c.CovI) {d g : Nat} (U : ∀ x, c.Upping x → (c.a.b.sk.lab d).up (c.a.b.sk.lab x) →
      c.a.b.sk.lab x = c.a.b.sk.lab d) {i : Nat} {cl : Call α} (hi : c.calls[i]? = some cl)
    (hd : .ref d ∈ callT cl) (hg : .gd g ∈ callT cl) (ho : ofG c.a d g) (hk : c.a.b.sk.kind d = .data) (h1 : c.a.gS g = 1) :
    NoDesc c.a c.T d ∧ ∀ k g' b, c.get k ≠ some ⟨.strong d g', b⟩ := by
  have S := B.heap.good.shape.toDShape
  obtain ⟨vd, hvd⟩ := B.heap.data (ref_mem_aS (Conf.call_tok hi hd)) hk
  obtain ⟨noent, below⟩ := Conf.lonely_guards B F hi hd hg ho hk h1
  refine ⟨fun x hx hkx hu => ?_, noent⟩
  rcases Conf.covered B F C hx hkx with ⟨g', h2, h3⟩ | ⟨y, h2, hyl, h3⟩ | h2
  · exact below g' x h2 h3 hx hkx hu
  · rcases h3 with h3 | ⟨k, z, gz, b, h4, h5⟩
    · have h4 := h3 d vd hvd (Lab.up_trans hu h2)
      rw [h4] at hu ⊢
      exact Lab.up_antisymm h2 hu
    · have hzT : .ref z ∈ c.T := Conf.get_tok' h4 (by simp [entT])
      have hzk : c.a.b.sk.kind z = .data := B.ents k _ h4
      have hz : (c.a.b.sk.lab d).up (c.a.b.sk.lab z) → c.a.b.sk.lab z = c.a.b.sk.lab d := fun hu =>
        below gz z (Conf.get_tok' h4 (by simp [entT])) (F.ents k _ h4) hzT hzk hu
      have hzd : z ≠ d := fun e => noent k gz b (by rw [← e]; exact h4)
      have hdz : ¬ (c.a.b.sk.lab d).up (c.a.b.sk.lab z) := fun hu => by
        obtain ⟨vz, hvz⟩ := B.heap.data (ref_mem_aS hzT) hzk
        exact hzd (S.dataUniq z vz d vd hvz hvd (hz hu))
      rcases h5 with rfl | h5
      · exact absurd (Lab.up_trans hu h2) hdz
      · obtain ⟨_, _, _, s, h6⟩ := B.par.par y z h5
        rw [h6] at h2
        rcases Lab.up_child_iff.1 (Lab.up_trans hu h2) with h7 | h7
        · rw [← h7] at h2; exact Lab.up_antisymm h2 hu
        · exact absurd h7 hdz
  · exact U x h2 hu

theorem past_step {a a' : Arena α} {pc : Pc α} {n : Next α} (e : PStep a pc a' n) (h : past n.pc) :
    past pc ∨ ∃ d g s v, pc = .wait d g s ∧ a.guard g = some v ∧ v.cGate = false := by
  cases e with
  | waitO d g s v hv hc => exact .inr ⟨d, g, s, v, rfl, hv, hc⟩
  | csSame | csKid | csNo | csInc | csNew | csWin | csLost | csLose => exact .inl trivial
  | _ => first | exact absurd h (fun h => h) | exact h.elim

theorem past_bh {a : Arena α} {bh : Option Handle} {pc : Pc α} (hp : pcOK a bh pc) (h : past pc) : bh ≠ none := by
  rintro rfl
  cases pc <;> first | exact h | (simp [pcOK, KidOf] at hp)

theorem closed_gate (B : c.BI) {i : Nat} {cl : Call α} (hi : c.calls[i]? = some cl) {g : Nat} (hg : g ∈ cL cl.pc) {v : GuardV}
    (hv : c.a.guard g = some v) : v.cGate = true := by
  have h1 := Arc.GI.cg B.gi g
  have h2 : g ∈ c.calls.flatMap fun cl => cL cl.pc := List.mem_flatMap.2 ⟨cl, List.mem_of_getElem? hi, hg⟩
  have h3 := List.count_pos_iff.2 h2
  rw [h1, hv] at h3
  simp only [Option.any_some] at h3
  cases hc : v.cGate with
  | true => rfl
  | false => simp [hc] at h3

theorem two_refs {T : List AT} {d : Nat} {a : Arena α} (h : Excl a T d) {A B : List AT} (p : T.Perm (A ++ B)) (h1 : .ref d ∈ A) (h2 : .ref d ∈ B) : False := by
  have h3 := h.tok
  rw [(aS_perm p).count_eq, aS_append, List.count_append] at h3
  have := List.count_pos_iff.2 (ref_mem_aS h1)
  have := List.count_pos_iff.2 (ref_mem_aS h2)
  omega

theorem T_split (c : Conf α) : c.T = c.hs.flatMap slotT ++ c.calls.flatMap callT := rfl

/-- A call does not hold what it has borrowed exclusively. -/
theorem excl_call {d : Nat} (h : Excl c.a c.T d) {i : Nat} {cl : Call α} (hi : c.calls[i]? = some cl) (hd : .ref d ∈ callT cl) (k g : Nat) (b : Bool) :
    c.get k ≠ some ⟨.strong d g, b⟩ := fun hk =>
  two_refs h (Conf.T_perm hi) hd (Conf.get_tok hk i (by simp [entT]))

/-- Two entries of the handle table. -/
theorem excl_ent {d : Nat} (h : Excl c.a c.T d) {k k' g g' : Nat} {b b' : Bool} (hk : c.get k = some ⟨.strong d g, b⟩)
    (hk' : c.get k' = some ⟨.strong d g', b'⟩) : k' = k := by
  refine Decidable.byContradiction fun hne => ?_
  have e := list_split (Conf.get_some hk)
  have p : c.T.Perm (entT ⟨.strong d g, b⟩ ++ ((c.hs.take k ++ c.hs.drop (k + 1)).flatMap slotT ++ c.calls.flatMap callT)) := by
    have e1 : c.hs.flatMap slotT = (c.hs.take k).flatMap slotT ++ (entT ⟨.strong d g, b⟩ ++ (c.hs.drop (k + 1)).flatMap slotT) := by
      conv => lhs; rw [e]
      rw [List.flatMap_append, List.flatMap_cons]; rfl
    rw [T_split, e1, List.flatMap_append]
    simp only [List.append_assoc]
    exact List.perm_append_comm_assoc _ _ _
  refine two_refs h p (by simp [entT]) (List.mem_append_left _ (List.mem_flatMap.2 ⟨some ⟨.strong d g', b'⟩, ?_, by simp [slotT, entT]⟩))
  have h2 := Conf.get_some hk'
  rcases Nat.lt_or_gt_of_ne hne with hlt | hgt
  · refine List.mem_append_left _ (List.mem_of_getElem? (i := k') ?_)
    rw [List.getElem?_take_of_lt hlt]; exact h2
  · refine List.mem_append_right _ (List.mem_of_getElem? (i := k' - (k + 1)) ?_)
    rw [List.getElem?_drop]
    have : k + 1 + (k' - (k + 1)) = k' := by omega
    rw [this]; exact h2

theorem bh_after {i : Nat} {clj : Call α} (cl' : Call α) (a' : Arena α) (new : List Ent) (hb : ∀ k, clj.borrow = some k → k < c.hs.length) :
    clj.bh (c.after i a' cl' new) = clj.bh c := by
  simp only [Call.bh]
  cases h : clj.borrow with
  | none => rfl
  | some k =>
    have hk := hb k h
    have : (c.after i a' cl' new).get k = c.get k := by
      simp only [Conf.get, Conf.after, List.getElem?_append_left hk]
    simp [this]

/-- The children of exclusive data that is taken apart. -/
theorem Excl.kids {a : Arena α} {d x : Nat} {v : DataV} {s : Side} {U' K : List AT} (I : HInv a.b (.ref d :: K)) (h : Excl a (.ref d :: K) d)
    (hd : a.b.sk.node d = some (.data v)) (hx : v.kids s = some x) (I' : HInv (a.b.kill d) (U' ++ K))
    (hU : ∀ y, .ref y ∈ U' → ∃ s, v.kids s = some y) (hc : ∀ y, a.b.sk.kind y = .data → (aS U').count y = (v.kids .L).toList.count y + (v.kids .R).toList.count y) :
    Excl (a.withB (a.b.kill d)) (U' ++ K) x := by
  have S := I.good.shape.toDShape
  obtain ⟨_, hl, vx, hvx⟩ := S.dataKid d v s x hd hx
  have hkx := I.base.kinds x _ hvx
  have hK : .ref x ∉ K := fun hm => by
    have := h.desc x (List.mem_cons_of_mem _ hm) hkx (by rw [hl]; exact Lab.up_child _ _)
    rw [hl] at this
    exact Lab.child_ne _ _ this
  refine ⟨hkx, ?_, fun y w s' hy he => ?_, fun y hy hky hu => ?_⟩
  · rw [aS_append, List.count_append, hc x hkx]
    have h0 : (aS K).count x = 0 := by
      refine List.count_eq_zero.2 fun hm => hK ?_
      obtain ⟨t, h1, h2⟩ := List.mem_flatMap.1 hm
      cases t with
      | ref x => simp only [AT.S, List.mem_singleton] at h2; subst h2; exact h1
      | reg r =>
        have h3 : r.alloc = some x := by simpa using h2
        have := I.good.shape.kinds _ _ ((I.regs r (List.mem_cons_of_mem _ h1)).1 x h3)
        rw [hkx] at this; cases this
      | _ => simp at h2
    have other : ∀ s', s' ≠ s → v.kids s' ≠ some x := fun s' hne he => by
      have h5 := (S.dataKid d v s' x hd he).2.1
      rw [hl] at h5
      exact hne (Lab.child_inj h5.symm).2
    rw [h0]
    cases s with
    | L =>
      have h6 : (v.kids .R).toList.count x = 0 := List.count_eq_zero.2 fun hm => other .R (by decide) (Option.mem_toList.1 hm)
      simp [hx, h6]
    | R =>
      have h6 : (v.kids .L).toList.count x = 0 := List.count_eq_zero.2 fun hm => other .L (by decide) (Option.mem_toList.1 hm)
      simp [hx, h6]
  · have hy' : upd a.b.sk.node d none y = some (.data w) := hy
    by_cases hyd : y = d
    · subst hyd; rw [upd_same] at hy'; cases hy'
    · rw [upd_ne _ _ hyd] at hy'
      have h5 := (S.dataKid y w s' x hy' he).2.1
      rw [hl] at h5
      exact hyd (S.dataUniq y w d v hy' hd (Lab.child_inj h5).1.symm)
  · show a.b.sk.lab y = a.b.sk.lab x
    have hu : (a.b.sk.lab x).up (a.b.sk.lab y) := hu
    rw [hl] at hu ⊢
    rcases List.mem_append.1 hy with hy | hy
    · obtain ⟨s', h1⟩ := hU y hy
      have h2 := (S.dataKid d v s' y hd h1).2.1
      rw [h2] at hu ⊢
      rcases Lab.up_child_iff.1 hu with h3 | h3
      · exact h3.symm
      · exact absurd h3 (Lab.not_child_up _ _)
    · have h1 := h.desc y (List.mem_cons_of_mem _ hy) hky (Lab.up_trans (Lab.up_child _ _) hu)
      rw [h1] at hu
      exact absurd hu (Lab.not_child_up _ _)

/-- A pending drop leaves what is known about calls and handles. -/
theorem move_task (B : c.BI) {c' : Conf α} {i : Nat} {cl : Call α} {t : ATask} {ts new : List ATask} {a' : Arena α}
    (hi : c.calls[i]? = some cl) (ht : cl.tasks = t :: ts) (e : ataskStep c.a t = .ok (a', new))
    (hc : c' = c.after i a' { cl with tasks := new ++ ts } []) (B' : c'.BI) (ev : AEvo c.a c'.a) :
    Move c.a c'.a (ataskT t) (new.flatMap ataskT) (ts.flatMap ataskT ++ pcT cl.pc ++ c.rest i) none cl.pc ∧
    c.T.Perm (ataskT t ++ (ts.flatMap ataskT ++ pcT cl.pc ++ c.rest i)) ∧
    c'.T.Perm (new.flatMap ataskT ++ (ts.flatMap ataskT ++ pcT cl.pc ++ c.rest i)) := by
  have p : c.T.Perm (ataskT t ++ (ts.flatMap ataskT ++ pcT cl.pc ++ c.rest i)) := by
    have := Conf.T_perm hi
    simpa only [callT, ht, List.flatMap_cons, List.append_assoc] using this
  have p' : c'.T.Perm (new.flatMap ataskT ++ (ts.flatMap ataskT ++ pcT cl.pc ++ c.rest i)) := by
    have := Conf.after_T hi a' { cl with tasks := new ++ ts } []
    rw [hc]
    simpa only [callT, List.flatMap_append, List.append_assoc, entsT, List.flatMap_nil, List.nil_append] using this
  have I := B.heap.perm p
  have I' := B'.heap.perm p'
  have hp := (B.calls i cl hi).2 t (by simp [ht])
  refine ⟨⟨I, I', B.par, B'.par, ev, fun x hx hk => ?_, fun z g h => by cases h⟩, p, p'⟩
  have ea : c'.a = a' := by rw [hc]; rfl
  have hn := ataskStep_next I hp e
  have hlt := I'.lt (ref_mem_aS (List.mem_append_left _ hx))
  rw [ea, hn] at hlt
  rw [ev.evo.kind x hlt] at hk
  rw [ea]
  exact org_task I hp e hx hk

theorem move_pc (B : c.BI) {c' : Conf α} {i : Nat} {cl : Call α} {n : Next α} {a' : Arena α} (hup : ∀ d, cl.pc ≠ .up d)
    (hi : c.calls[i]? = some cl) (ht : cl.tasks = []) (e : PStep c.a cl.pc a' n)
    (hc : c' = c.after i a' { cl with pc := n.pc, tasks := n.tasks } n.push) (B' : c'.BI) (ev : AEvo c.a c'.a) :
    Move c.a c'.a (pcT cl.pc) (n.tasks.flatMap ataskT ++ pcT n.pc ++ entsT n.push) (c.rest i) (cl.bh c) cl.pc ∧
    c.T.Perm (pcT cl.pc ++ c.rest i) ∧
    c'.T.Perm (n.tasks.flatMap ataskT ++ pcT n.pc ++ entsT n.push ++ c.rest i) := by
  have p : c.T.Perm (pcT cl.pc ++ c.rest i) := by
    have := Conf.T_perm hi
    simpa only [callT, ht, List.flatMap_nil, List.nil_append] using this
  have p' : c'.T.Perm (n.tasks.flatMap ataskT ++ pcT n.pc ++ entsT n.push ++ c.rest i) := by
    have := Conf.after_T hi a' { cl with pc := n.pc, tasks := n.tasks } n.push
    rw [hc]
    exact this
  have I := B.heap.perm p
  have I' := B'.heap.perm p'
  have ea : c'.a = a' := by rw [hc]; rfl
  refine ⟨⟨I, I', B.par, B'.par, ev, fun x hx hk => ?_, fun z g h => ?_⟩, p, p'⟩
  · rw [ea] at hk ⊢
    exact org_pc I B.par (B.calls i cl hi).1 hup e hx hk
  · obtain ⟨k, b, _, hk⟩ := Conf.bh_get h
    exact ⟨Conf.get_tok hk i (by simp [entT]), B.ents k _ hk⟩

theorem Excl.withSk {a a' : Arena α} {T : List AT} {d : Nat} (hs : a'.b.sk = a.b.sk) (h : Excl a T d) : Excl a' T d :=
  ⟨hs ▸ h.kind, h.tok, hs ▸ h.link, fun x hx hk hu => by rw [hs] at hk hu ⊢; exact h.desc x hx hk hu⟩

theorem push_pc {a a' : Arena α} {pc : Pc α} {n : Next α} {K : List AT} {d g : Nat} (P : PStep a pc a' n)
    (hw : d ∈ winL true pc → Excl a (pcT pc ++ K) d) (hk : ⟨.strong d g, true⟩ ∈ n.push) :
    Excl a' (n.tasks.flatMap ataskT ++ pcT n.pc ++ entsT n.push ++ K) d := by
  cases P with
  | gmOpenD d0 g0 ok v hv =>
    simp only [List.mem_singleton, Ent.mk.injEq, Handle.strong.injEq] at hk
    obtain ⟨⟨rfl, rfl⟩, rfl⟩ := hk
    have := hw (by simp [winL])
    exact Excl.withSk (a := a) rfl this
  | _ => simp at hk

theorem aS_kidsFg (v : DataV) : aS ((kidsFg v).map fgT) = (v.kids .L).toList ++ (v.kids .R).toList := by
  have h : ∀ l : List Nat, aS ((l.map Fg.kid).map fgT) = l := by
    intro l
    induction l with
    | nil => rfl
    | cons x l ih => simp only [List.map_cons]; show x :: aS _ = _; rw [ih]
  simp only [kidsFg, List.map_append, aS_append, h]

theorem mid_pc {b : Bool} {a a' : Arena α} {pc : Pc α} {n : Next α} {d g : Nat} (P : PStep a pc a' n) (h : midP b n.pc d g) :
    (b = true ∧ pc = .gm3 d g ∨ pc = .im1 d g) ∧ a.gS g = 1 ∧ a' = a ∧ n.tasks = [] ∧ n.push = [] ∧ pcT n.pc = pcT pc := by
  cases P with
  | gm3 d0 g0 v hv hc => rcases h with ⟨hb, h⟩ | h <;> cases h; exact ⟨.inl ⟨hb, rfl⟩, hc, rfl, rfl, rfl, rfl⟩
  | im1 d0 g0 v hv hc => rcases h with ⟨hb, h⟩ | h <;> cases h; exact ⟨.inr rfl, hc, rfl, rfl, rfl, rfl⟩
  | _ => rcases h with ⟨hb, h⟩ | h <;> cases h

theorem win_pc {b : Bool} {a a' : Arena α} {pc : Pc α} {n : Next α} {K : List AT} {bh : Option Handle} {d : Nat} (P : PStep a pc a' n)
    (I : HInv a.b (pcT pc ++ K)) (I' : HInv a'.b (n.tasks.flatMap ataskT ++ pcT n.pc ++ entsT n.push ++ K)) (hp : pcOK a bh pc)
    (Pa : ParOK a) (Pa' : ParOK a') (ev : AEvo a a') (hw : ∀ d, d ∈ winL b pc → Excl a (pcT pc ++ K) d)
    (hm : ∀ d g, midP b pc d g → NoDesc a (pcT pc ++ K) d) (hd : d ∈ winL b n.pc) :
    Excl a' (n.tasks.flatMap ataskT ++ pcT n.pc ++ entsT n.push ++ K) d := by
  cases P with
  | gm4 d0 g v hv hc =>
    cases b with
    | false => simp [winL] at hd
    | true =>
      simp only [winL, if_true, List.mem_singleton] at hd
      subst hd
      exact Excl.of I hp (by simp [pcT]) hc (hm d g (.inl ⟨rfl, rfl⟩))
  | gmOpenC d0 g ok v hv =>
    cases ok with
    | false => simp [winL] at hd
    | true =>
      have := (hw d (by simpa [winL] using hd)).perm (T' := pcT (.gmOpenD d0 g true : Pc α) ++ entsT [] ++ K) (by simp [pcT, entsT])
      exact Excl.withSk (a := a) rfl this
  | imVal w todo g r acc =>
    have hd' := mem_winL.1 hd
    refine (hw d (mem_winL.2 (List.mem_cons_of_mem _ hd'))).perm ?_
    rw [List.perm_iff_count]
    intro t
    simp only [pcT, List.flatMap_cons, List.flatMap_nil, List.append_nil, ataskT, taskT, entsT, List.map_cons, fgT, List.count_append,
      List.count_cons, List.count_nil]
    omega
  | imKidNo c todo g r acc v hv hc =>
    exact absurd ((hw c (mem_winL.2 (List.mem_cons_self ..))).strong I) hc
  | im2 d0 g v hv hc =>
    have hv := getData_some hv
    have hkd : a.b.sk.kind d0 = .data := hp
    have I0 : HInv a.b (.ref d0 :: (.gd g :: K)) := I
    have E : Excl a (.ref d0 :: (.gd g :: K)) d0 := Excl.of I0 hkd (List.mem_cons_self ..) hc (hm d0 g (.inr rfl))
    obtain ⟨s, hs⟩ := ref_kidsFg (v := v) (x := d) (by
      have := mem_winL.1 hd
      exact List.mem_map.2 ⟨_, this, rfl⟩)
    let U' : List AT := .reg (bare ⟨v.buf, v.off, v.len, v.alloc⟩) :: ((ownSpans v).map .own ++ (kidsFg v).map fgT)
    have p : (U' ++ (.gd g :: K)).Perm
        ([] ++ pcT (.imFg (kidsFg v) g ⟨v.buf, v.off, v.len, v.alloc⟩ (ownSpans v) : Pc α) ++ entsT [] ++ K) := by
      rw [List.perm_iff_count]
      intro t
      simp only [U', pcT, List.count_append, List.count_cons, List.cons_append, List.append_assoc, entsT, List.flatMap_nil, List.nil_append]
      omega
    have I1 : HInv (a.withB (a.b.kill d0)).b (U' ++ (.gd g :: K)) := I'.perm p.symm
    refine Excl.perm (Excl.kids I0 E hv hs I1 (fun y hy => ?_) (fun y hy => ?_)) p
    · simp only [U', List.mem_cons, List.mem_append, List.mem_map, reduceCtorEq, and_false, exists_false, false_or] at hy
      exact ref_kidsFg (List.mem_map.2 hy)
    · have hal : (v.alloc).toList.count y = 0 := List.count_eq_zero.2 fun hm' => by
        have := I.good.shape.kinds _ _ (I.good.shape.dataAlloc d0 v y hv (Option.mem_toList.1 hm'))
        rw [hy] at this; cases this
      have e : aS U' = v.alloc.toList ++ (aS ((ownSpans v).map .own) ++ aS ((kidsFg v).map fgT)) := by
        rw [← aS_append]; rfl
      rw [e, aS_own, aS_kidsFg]
      simp only [List.nil_append, List.count_append, hal]
      omega
  | imKid c todo g r acc v hv hc =>
    have hv := getData_some hv
    have hEc := hw c (mem_winL.2 (List.mem_cons_self ..))
    have hkc : a.b.sk.kind c = .data := hEc.kind
    let K0 : List AT := .gd g :: .reg (bare r) :: (acc.map .own ++ todo.map fgT) ++ K
    let U' : List AT := (ownSpans v).map .own ++ .reg ⟨v.buf, v.off, 0, v.alloc⟩ :: (kidsFg v).map fgT
    have p0 : (pcT (.imFg (.kid c :: todo) g r acc : Pc α) ++ K).Perm (.ref c :: K0) := by
      rw [List.perm_iff_count]
      intro t
      simp only [K0, pcT, List.map_cons, fgT, List.count_append, List.count_cons, List.cons_append, List.append_assoc]
      omega
    have p : (U' ++ K0).Perm
        ([] ++ pcT (.imFg (kidsFg v ++ .val ⟨v.buf, v.off, 0, v.alloc⟩ :: todo) g r (ownSpans v ++ acc) : Pc α) ++ entsT [] ++ K) := by
      rw [List.perm_iff_count]
      intro t
      simp only [U', K0, pcT, List.map_cons, List.map_append, fgT, List.count_append, List.count_cons, List.cons_append, List.append_assoc,
        entsT, List.flatMap_nil, List.nil_append]
      omega
    have I0 := I.perm p0
    have E := hEc.perm p0
    have I1 : HInv (a.withB (a.b.kill c)).b (U' ++ K0) := I'.perm p.symm
    have hU : ∀ y, .ref y ∈ U' → ∃ s, v.kids s = some y := fun y hy => by
      simp only [U', List.mem_cons, List.mem_append, List.mem_map, reduceCtorEq, and_false, exists_false, false_or] at hy
      exact ref_kidsFg (List.mem_map.2 hy)
    have hd' := mem_winL.1 hd
    rcases List.mem_append.1 hd' with hd' | hd'
    · obtain ⟨s, hs⟩ := ref_kidsFg (v := v) (x := d) (List.mem_map.2 ⟨_, hd', rfl⟩)
      refine Excl.perm (Excl.kids I0 E hv hs I1 hU (fun y hy => ?_)) p
      have hal : (v.alloc).toList.count y = 0 := List.count_eq_zero.2 fun hm' => by
        have := I.good.shape.kinds _ _ (I.good.shape.dataAlloc c v y hv (Option.mem_toList.1 hm'))
        rw [hy] at this; cases this
      have e : aS U' = aS ((ownSpans v).map .own) ++ (v.alloc.toList ++ aS ((kidsFg v).map fgT)) := by
        rw [aS_append]; rfl
      rw [e, aS_own, aS_kidsFg]
      simp only [List.nil_append, List.count_append, hal]
      omega
    · have hd' : .kid d ∈ todo := by simpa using hd'
      have hdK : .ref d ∈ K0 := by
        refine List.mem_append_left _ (List.mem_cons_of_mem _ (List.mem_cons_of_mem _ (List.mem_append_right _ ?_)))
        exact List.mem_map.2 ⟨_, hd', rfl⟩
      have hEd := (hw d (mem_winL.2 (List.mem_cons_of_mem _ hd'))).perm p0
      refine Excl.perm (Excl.move (U := [.ref c]) (bh := none) (pc := .imFg (.kid c :: todo) g r acc)
        ⟨I0, I1, Pa, Pa', ev, fun x hx hk => ?_, fun _ _ h => by cases h⟩ hdK hEd (fun _ h => by cases h)) p
      obtain ⟨s, hs⟩ := hU x hx
      exact .dead c v s (List.mem_singleton.2 rfl) hc hv hs
  | _ => simp [winL] at hd

theorem Call.upOn_some {cl : Call α} {u : Nat} : cl.upOn = some u ↔ cl.op.isUpgrade = true ∧ cl.on = some u := by
  simp only [Call.upOn]
  split
  · next h => simp [h]
  · next h => simp [h]

/-- What is upgraded meanwhile is not below. -/
theorem Conf.Clear.at {b : Bool} (L : c.Clear b) {i : Nat} {cl : Call α} {d : Nat} (hi : c.calls[i]? = some cl) (hf : cl.fin = false)
    (hd : cl.on = some d) (h : cl.op.isIntoMut = true ∨ b = true ∧ cl.op.isGetMut = true) {j : Nat} {clj : Call α} {u : Nat}
    (hj : c.calls[j]? = some clj) (hfj : clj.fin = false) (hu : clj.upOn = some u) (hup : (c.a.b.sk.lab d).up (c.a.b.sk.lab u)) :
    c.a.b.sk.lab u = c.a.b.sk.lab d := by
  obtain ⟨h1, h2⟩ := L.calls j clj u i cl d hj hfj hu hi hf hd hup
  rcases h with h | ⟨hb, h⟩
  · exact h1 h
  · rw [h] at h2; cases h2 hb

theorem Conf.Clear.upping {b : Bool} (L : c.Clear b) {i : Nat} {cl : Call α} {d : Nat} (hi : c.calls[i]? = some cl) (hf : cl.fin = false)
    (hd : cl.on = some d) (h : cl.op.isIntoMut = true ∨ b = true ∧ cl.op.isGetMut = true) (x : Nat) (hx : c.Upping x)
    (hup : (c.a.b.sk.lab d).up (c.a.b.sk.lab x)) : c.a.b.sk.lab x = c.a.b.sk.lab d := by
  obtain ⟨j, clj, u, hj, hfj, hu, _, h1⟩ := hx
  have h2 := L.at hi hf hd h hj hfj hu (Lab.up_trans hup h1)
  rw [h2] at h1
  exact Lab.up_antisymm h1 hup

theorem Conf.Clear.mid {b : Bool} (L : c.Clear b) {i : Nat} {cl : Call α} {d g : Nat} (hi : c.calls[i]? = some cl) (h : midP b cl.pc d g)
    {j : Nat} {clj : Call α} {u : Nat} (hj : c.calls[j]? = some clj) (hfj : clj.fin = false) (hu : clj.upOn = some u)
    (hup : (c.a.b.sk.lab d).up (c.a.b.sk.lab u)) : c.a.b.sk.lab u = c.a.b.sk.lab d := by
  have h1 := L.ops i cl hi
  rcases h with ⟨hb, h⟩ | h <;> simp only [opOK, h] at h1
  · exact L.at hi (not_fin (by simp [h])) h1.2 (.inr ⟨hb, h1.1⟩) hj hfj hu hup
  · exact L.at hi (not_fin (by simp [h])) h1.2 (.inl h1.1) hj hfj hu hup

theorem Conf.Clear.win {b : Bool} (L : c.Clear b) {i : Nat} {cl : Call α} {d : Nat} (hi : c.calls[i]? = some cl) (h : d ∈ winL b cl.pc)
    {j : Nat} {clj : Call α} {u : Nat} (hj : c.calls[j]? = some clj) (hfj : clj.fin = false) (hu : clj.upOn = some u) :
    ¬ (c.a.b.sk.lab d).up (c.a.b.sk.lab u) := by
  intro hup
  have h1 := L.ops i cl hi
  have gm : b = true → cl.op.isGetMut = true → cl.on = some d → cl.fin = false → False := by
    intro hb hg ho hf
    have := (L.calls j clj u i cl d hj hfj hu hi hf ho hup).2 hb
    rw [hg] at this; cases this
  cases hp : cl.pc with
  | gmOpenC d0 g ok =>
    simp only [opOK, hp] at h1
    rw [hp] at h
    cases b with
    | false => cases ok <;> simp [winL] at h
    | true =>
      cases ok with
      | false => simp [winL] at h
      | true =>
        simp only [winL, if_true, List.mem_singleton] at h
        subst h
        exact gm rfl h1.1 h1.2 (not_fin (by simp [hp]))
  | gmOpenD d0 g ok =>
    simp only [opOK, hp] at h1
    rw [hp] at h
    cases b with
    | false => cases ok <;> simp [winL] at h
    | true =>
      cases ok with
      | false => simp [winL] at h
      | true =>
        simp only [winL, if_true, List.mem_singleton] at h
        subst h
        exact gm rfl h1.1 h1.2 (not_fin (by simp [hp]))
  | imFg todo g r acc =>
    simp only [opOK, hp] at h1
    rw [hp] at h
    obtain ⟨h2, d0, h3, _, h4⟩ := h1
    obtain ⟨_, h5, h6⟩ := h4 d (mem_winL.1 h)
    have h7 := L.at hi (not_fin (by simp [hp])) h3 (.inl h2) hj hfj hu (Lab.up_trans h5 hup)
    rw [h7] at hup
    exact h6 (Lab.up_antisymm h5 hup)
  | _ => rw [hp] at h; simp [winL] at h

/-- `Weak::upgrade` does nothing, or makes a new reference. -/
theorem up_step {a a' : Arena α} {d0 : Option Nat} {n : Next α} (P : PStep a (.up d0) a' n) :
    a'.b.sk = a.b.sk ∧ n.tasks = [] ∧ n.push = [] ∧ ¬ past n.pc ∧ (pcT n.pc = [] ∨ ∃ u, d0 = some u ∧ pcT n.pc = [.ref u]) := by
  cases P with
  | upN => exact ⟨rfl, rfl, rfl, id, .inl rfl⟩
  | upNo d h => exact ⟨rfl, rfl, rfl, id, .inl rfl⟩
  | up d h hs e =>
    refine ⟨?_, rfl, rfl, id, .inr ⟨d, rfl, rfl⟩⟩
    simp only [Heap.incS] at e
    split at e <;> cases e
    rfl

theorem NoDesc.ref {a a' : Arena α} {T : List AT} {d : Nat} {o : Option Nat} (hs : a'.b.sk = a.b.sk) (h : NoDesc a T d)
    (hu : ∀ u, o = some u → (a.b.sk.lab d).up (a.b.sk.lab u) → a.b.sk.lab u = a.b.sk.lab d) : NoDesc a' (o.toList.map .ref ++ T) d := by
  intro x hx hk hup
  rw [hs] at hk hup ⊢
  rcases List.mem_append.1 hx with hx | hx
  · obtain ⟨u, h1, h2⟩ := List.mem_map.1 hx
    cases h2
    exact hu x (Option.mem_toList.1 h1) hup
  · exact h x hx hk hup

theorem Excl.ref {a a' : Arena α} {T : List AT} {d : Nat} {o : Option Nat} (hs : a'.b.sk = a.b.sk) (h : Excl a T d)
    (hu : ∀ u, o = some u → ¬ (a.b.sk.lab d).up (a.b.sk.lab u)) : Excl a' (o.toList.map .ref ++ T) d := by
  refine ⟨hs ▸ h.kind, ?_, hs ▸ h.link, h.desc.ref hs fun u h1 h2 => absurd h2 (hu u h1)⟩
  cases o with
  | none => exact h.tok
  | some u =>
    have hne : u ≠ d := fun e => hu u rfl (by rw [e]; exact Lab.up_refl _)
    show (u :: aS T).count d = 1
    rw [List.count_cons_of_ne hne]
    exact h.tok

theorem up_tracks {b : Bool} {a a' : Arena α} {d0 : Option Nat} {n : Next α} (P : PStep a (.up d0) a' n) :
    winL b n.pc = [] ∧ (∀ d g, ¬ midP b n.pc d g) ∧ n.push = [] := by
  cases P <;> simp [winL, midP]

theorem Conf.PH.step {b : Bool} {c' : Conf α} {i : Nat} (H : c.PH b) (L : c.Clear b) (C : c.CovI) (F : c.GFI) (B : c.BI) (B' : c'.BI)
    (ev : AEvo c.a c'.a) (h : c.step i = .ok c') : c'.PH b := by
  have bor' : ∀ {cl cl' : Call α} {a' : Arena α} {new : List Ent}, c.calls[i]? = some cl → c' = c.after i a' cl' new →
      cl'.borrow = cl.borrow → ∀ (j : Nat) clj k, c'.calls[j]? = some clj → clj.borrow = some k →
        k < c'.hs.length ∧ ∀ d g, c'.get k ≠ some ⟨.strong d g, true⟩ := by
    rintro cl cl' a' new hi rfl hb j clj k hj hk
    have key : k < c.hs.length ∧ ∀ d g, c.get k ≠ some ⟨.strong d g, true⟩ := by
      rcases after_calls hi hj with ⟨rfl, rfl⟩ | ⟨_, hj⟩
      · exact H.bor j cl k hi (by rw [← hb]; exact hk)
      · exact H.bor j clj k hj hk
    refine ⟨by simp only [Conf.after, List.length_append]; omega, fun d g hg => ?_⟩
    rcases after_get hg with h | ⟨h, _⟩
    · exact key.2 d g h
    · omega
  have blt : ∀ {j : Nat} {clj : Call α}, c.calls[j]? = some clj → ∀ k, clj.borrow = some k → k < c.hs.length :=
    fun hj k hk => (H.bor _ _ k hj hk).1
  have midref : ∀ {cl : Call α} {d g : Nat}, midP b cl.pc d g → .ref d ∈ pcT cl.pc ∧ .gd g ∈ pcT cl.pc ∧ g ∈ cL cl.pc := by
    rintro cl d g (⟨_, h⟩ | h) <;> rw [h] <;> simp [pcT, cL]
  have midkind : ∀ {j : Nat} {cl : Call α} {d g : Nat}, c.calls[j]? = some cl → midP b cl.pc d g →
      c.a.b.sk.kind d = .data ∧ ofG c.a d g := by
    intro j cl d g hj h
    have h1 := (B.calls j cl hj).1
    have h2 := (F.calls j cl hj).1
    rcases h with ⟨_, h⟩ | h <;> rw [h] at h1 h2 <;> exact ⟨h1, h2⟩
  cases CStep.of h with
  | none h => exact H
  | task cl t ts a' new hi ht e =>
    obtain ⟨M, p, p'⟩ := move_task B hi ht e rfl B' ev
    have inK : ∀ {j : Nat} {clj : Call α}, c.calls[j]? = some clj → ∀ x, x ∈ pcT clj.pc → x ∈ ts.flatMap ataskT ++ pcT cl.pc ++ c.rest i := by
      intro j clj hj x hx
      by_cases hij : j = i
      · subst hij; rw [hi] at hj; cases hj
        exact List.mem_append_left _ (List.mem_append_right _ hx)
      · exact List.mem_append_right _ (Conf.rest_call hj hij (List.mem_append_right _ hx))
    have pcs : ∀ {j : Nat} {clj : Call α}, (c.after i a' { cl with tasks := new ++ ts } []).calls[j]? = some clj →
        ∃ clj0, c.calls[j]? = some clj0 ∧ clj0.pc = clj.pc ∧ clj0.borrow = clj.borrow := by
      intro j clj hj
      rcases after_calls hi hj with ⟨rfl, rfl⟩ | ⟨_, hj⟩
      · exact ⟨cl, hi, rfl, rfl⟩
      · exact ⟨clj, hj, rfl, rfl⟩
    have bhs : ∀ {j : Nat} {clj clj0 : Call α}, c.calls[j]? = some clj0 → clj0.borrow = clj.borrow →
        clj.bh (c.after i a' { cl with tasks := new ++ ts } []) = clj0.bh c := by
      intro j clj clj0 hj hb
      rw [bh_after _ _ _ (fun k hk => blt hj k (by rw [hb]; exact hk))]
      simp only [Call.bh, hb]
    refine ⟨?_, ?_, ?_, bor' hi rfl rfl⟩
    · intro j clj d g hj hp
      obtain ⟨clj0, hj0, e1, e2⟩ := pcs hj
      rw [← e1] at hp
      obtain ⟨h1, h2⟩ := H.mid j clj0 d g hj0 hp
      refine ⟨((h1.perm p).move M (midkind hj0 hp).1 (inK hj0 _ (midref hp).1) (fun _ h => by cases h)).perm p'.symm, ?_⟩
      intro j' clj' g' hj' hb'
      obtain ⟨clj1, hj1, e3, e4⟩ := pcs hj'
      rw [bhs hj1 e4] at hb'
      rw [← e3]
      exact h2 j' clj1 g' hj1 hb'
    · intro j clj d hj hd
      obtain ⟨clj0, hj0, e1, e2⟩ := pcs hj
      rw [← e1] at hd
      exact (((H.win j clj0 d hj0 hd).perm p).move M (inK hj0 _ (winL_ref hd)) (fun _ h => by cases h)).perm p'.symm
    · intro hbt k d g hk
      rcases after_get hk with hk | ⟨_, hk⟩
      · exact (((H.ent hbt k d g hk).perm p).move M (List.mem_append_right _ (Conf.get_tok hk i (by simp [entT]))) (fun _ h => by cases h)).perm p'.symm
      · cases hk
  | pc cl a' n hi ht e =>
    have P := PStep.of e
    by_cases hup : ∃ d, cl.pc = .up d
    · obtain ⟨d0, hup⟩ := hup
      have hf : cl.fin = false := not_fin (by simp [hup])
      have ho := L.ops i cl hi
      simp only [opOK, hup] at ho
      have P' := P
      rw [hup] at P'
      obtain ⟨h1, h2, h3⟩ := up_tracks (b := b) P'
      obtain ⟨es, et, _, enp, eT⟩ := up_step P'
      obtain ⟨o, eo, ou⟩ : ∃ o : Option Nat, pcT n.pc = o.toList.map .ref ∧ ∀ u, o = some u → cl.upOn = some u := by
        rcases eT with eT | ⟨u, e1, eT⟩
        · exact ⟨none, eT, fun _ h => by cases h⟩
        · refine ⟨some u, eT, fun u' h => ?_⟩
          cases h
          exact Call.upOn_some.2 ⟨ho.1, by rw [ho.2, e1]⟩
      have p : c.T.Perm (c.rest i) := by
        have := Conf.T_perm hi
        simpa only [callT, ht, hup, pcT, List.flatMap_nil, List.nil_append] using this
      have p' : (c.after i a' { cl with pc := n.pc, tasks := n.tasks } n.push).T.Perm (o.toList.map .ref ++ c.rest i) := by
        have := Conf.after_T hi a' { cl with pc := n.pc, tasks := n.tasks } n.push
        simpa only [callT, et, h3, eo, List.flatMap_nil, List.nil_append, entsT, List.append_nil] using this
      refine ⟨fun j clj d g hj hp => ?_, fun j clj d hj hd => ?_, fun hbt k d g hk => ?_, bor' hi rfl rfl⟩
      · rcases after_calls hi hj with ⟨rfl, rfl⟩ | ⟨_, hj⟩
        · exact absurd hp (h2 d g)
        · obtain ⟨h4, h5⟩ := H.mid j clj d g hj hp
          refine ⟨((h4.perm p).ref es fun u hu => L.mid hj hp hi hf (ou u hu)).perm p'.symm, fun j' clj' g' hj' hb' => ?_⟩
          rcases after_calls hi hj' with ⟨rfl, rfl⟩ | ⟨_, hj'⟩
          · exact enp
          · rw [bh_after _ _ _ (blt hj')] at hb'
            exact h5 j' clj' g' hj' hb'
      · rcases after_calls hi hj with ⟨rfl, rfl⟩ | ⟨_, hj⟩
        · have hd : d ∈ winL b n.pc := hd
          rw [h1] at hd; cases hd
        · exact (((H.win j clj d hj hd).perm p).ref es fun u hu => L.win hj hd hi hf (ou u hu)).perm p'.symm
      · rcases after_get hk with hk | ⟨_, hk⟩
        · exact (((H.ent hbt k d g hk).perm p).ref es fun u hu => L.ents i cl u k d g hi hf (ou u hu) hbt hk).perm p'.symm
        · rw [h3] at hk; cases hk
    have hup : ∀ d, cl.pc ≠ .up d := fun d h => hup ⟨d, h⟩
    obtain ⟨M, p, p'⟩ := move_pc B hup hi ht P rfl B' ev
    have I := M.I
    have I' := M.I'
    have inK : ∀ {j : Nat} {clj : Call α}, c.calls[j]? = some clj → j ≠ i → ∀ x, x ∈ pcT clj.pc → x ∈ c.rest i :=
      fun hj hij x hx => Conf.rest_call hj hij (List.mem_append_right _ hx)
    have hcT : ∀ x, x ∈ pcT cl.pc → x ∈ callT cl := fun x hx => List.mem_append_right _ hx
    have bhi : ∀ (clj : Call α), clj.borrow = cl.borrow → clj.bh (c.after i a' { cl with pc := n.pc, tasks := n.tasks } n.push) = cl.bh c := by
      intro clj hb
      rw [bh_after _ _ _ (fun k hk => blt hi k (by rw [← hb]; exact hk))]
      simp only [Call.bh, hb]
    -- a step that leaves the arena
    have same : ∀ {d : Nat}, c.a.b.sk = a'.b.sk → Excl c.a (pcT cl.pc ++ c.rest i) d →
        (pcT cl.pc ++ c.rest i).Perm (n.tasks.flatMap ataskT ++ pcT n.pc ++ entsT n.push ++ c.rest i) →
        Excl a' (n.tasks.flatMap ataskT ++ pcT n.pc ++ entsT n.push ++ c.rest i) d := by
      intro d hs h1 h2
      have h3 := h1.perm h2
      exact ⟨hs ▸ h3.kind, h3.tok, hs ▸ h3.link, fun x hx hk hu => by
        rw [← hs] at hk hu ⊢
        exact h3.desc x hx hk hu⟩
    refine ⟨?_, ?_, ?_, bor' hi rfl rfl⟩
    · intro j clj d g hj hp
      have nopast : (∀ g', cl.bh c = some (.strong d g') → ¬ past n.pc) →
          (∀ (j' : Nat) clj' g', c.calls[j']? = some clj' → j' ≠ i → clj'.bh c = some (.strong d g') → ¬ past clj'.pc) →
          ∀ (j' : Nat) clj' g', (c.after i a' { cl with pc := n.pc, tasks := n.tasks } n.push).calls[j']? = some clj' →
            clj'.bh (c.after i a' { cl with pc := n.pc, tasks := n.tasks } n.push) = some (.strong d g') → ¬ past clj'.pc := by
        intro h1 h2 j' clj' g' hj' hb'
        rcases after_calls hi hj' with ⟨rfl, rfl⟩ | ⟨hij, hj'⟩
        · have hb2 := bhi { cl with pc := n.pc, tasks := n.tasks, out := cl.out ++ List.range' c.hs.length n.push.length } rfl
          exact h1 g' (hb2.symm.trans hb')
        · rw [bh_after _ _ _ (blt hj')] at hb'
          exact h2 j' clj' g' hj' hij hb'
      rcases after_calls hi hj with ⟨rfl, rfl⟩ | ⟨hij, hj⟩
      · have lone : c.a.gS g = 1 → (b = true ∧ cl.pc = .gm3 d g ∨ cl.pc = .im1 d g) →
            NoDesc c.a c.T d ∧ ∀ k g' b, c.get k ≠ some ⟨.strong d g', b⟩ := by
          intro h1 h2
          have h3 := (B.calls j cl hi).1
          have h4 := (F.calls j cl hi).1
          have U : ∀ x, c.Upping x → (c.a.b.sk.lab d).up (c.a.b.sk.lab x) → c.a.b.sk.lab x = c.a.b.sk.lab d := by
            have h5 := L.ops j cl hi
            rcases h2 with ⟨hb, h2⟩ | h2 <;> simp only [opOK, h2] at h5
            · exact L.upping hi (not_fin (by simp [h2])) h5.2 (.inr ⟨hb, h5.1⟩)
            · exact L.upping hi (not_fin (by simp [h2])) h5.2 (.inl h5.1)
          rcases h2 with ⟨_, h2⟩ | h2 <;> rw [h2] at h3 h4 <;>
            exact Conf.lonely B F C U hi (hcT _ (by rw [h2]; simp [pcT])) (hcT _ (by rw [h2]; simp [pcT])) h4 h3 h1
        obtain ⟨h1, h2, rfl, h4, h5, h6⟩ := mid_pc P hp
        have h7 := lone h2 h1
        refine ⟨fun x hx hk hu => ?_, nopast ?_ ?_⟩
        · refine h7.1 x ?_ hk hu
          have := p'.mem_iff.1 hx
          rw [h4, h5, h6] at this
          exact p.mem_iff.2 (by simpa [entsT] using this)
        · intro g' hb
          obtain ⟨k, b, _, hk⟩ := Conf.bh_get hb
          exact absurd hk (h7.2 k g' b)
        · intro j' clj' g' _ _ hb
          obtain ⟨k, b, _, hk⟩ := Conf.bh_get hb
          exact absurd hk (h7.2 k g' b)
      · obtain ⟨h1, h2⟩ := H.mid j clj d g hj hp
        obtain ⟨hk, ho⟩ := midkind hj hp
        refine ⟨((h1.perm p).move M hk (inK hj hij _ (midref hp).1) (fun g' hb => h2 i cl g' hi hb)).perm p'.symm, nopast ?_ ?_⟩
        · intro g' hb hpa
          rcases past_step P hpa with h3 | ⟨d0, g0, s, v, h3, h4, h5⟩
          · exact h2 i cl g' hi hb h3
          · have h6 := (B.calls i cl hi).1
            rw [h3] at h6
            have h7 : cl.bh c = some (.strong d0 g0) := h6
            rw [h7] at hb; cases hb
            obtain ⟨k, b, _, hkk⟩ := Conf.bh_get h7
            obtain ⟨vg, hvg, _⟩ := BI_gd B.gi (Conf.call_tok hj (List.mem_append_right _ (midref hp).2.1))
            obtain ⟨vd, hvd⟩ := B.heap.data (ref_mem_aS (Conf.call_tok hj (List.mem_append_right _ (midref hp).1))) hk
            have hgo := F.ents k _ hkk
            have := F.gf.unique h4 hvg (by rw [hgo.2, ho.2]) (n := .data vd) (by rw [hgo.2]; exact hvd)
            subst this
            have := closed_gate B hj (midref hp).2.2 h4
            rw [h5] at this; cases this
        · exact fun j' clj' g' hj' _ hb => h2 j' clj' g' hj' hb
    · intro j clj d hj hd
      rcases after_calls hi hj with ⟨rfl, rfl⟩ | ⟨hij, hj⟩
      · have hd : d ∈ winL b n.pc := hd
        have hw := H.win j cl
        have hm := H.mid j cl
        exact (win_pc P I I' (B.calls j cl hi).1 B.par B'.par ev (fun d hd => (hw d hi hd).perm p) (fun d g hd => (hm d g hi hd).1.perm p) hd).perm p'.symm
      · have h1 := H.win j clj d hj hd
        refine ((h1.perm p).move M (inK hj hij _ (winL_ref hd)) (fun g hb => ?_)).perm p'.symm
        obtain ⟨k, b, _, hk⟩ := Conf.bh_get hb
        exact excl_call h1 hj (List.mem_append_right _ (winL_ref hd)) k g b hk
    · intro hbt k d g hk
      rcases after_get hk with hk | ⟨_, hk⟩
      · have h1 := H.ent hbt k d g hk
        refine ((h1.perm p).move M (Conf.get_tok hk i (by simp [entT])) (fun g' hb => ?_)).perm p'.symm
        obtain ⟨k', b, hkb, hk'⟩ := Conf.bh_get hb
        have := excl_ent h1 hk hk'
        subst this
        exact (H.bor i cl k' hi hkb).2 d g hk
      · exact (push_pc P (fun h => (H.win i cl d hi (by rw [hbt]; exact h)).perm p) hk).perm p'.symm

end
end Verif.Arc
