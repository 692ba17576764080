import Verif.Arc.Proofs.Families
import Verif.Arc.Proofs.Live
import Verif.Arc.Proofs.Weak
import Verif.Arc.Turns
/-!
# How many turns a call needs

A measure for a single call that each of its steps decreases, and that the steps of other
calls leave alone: other calls cannot make this one take longer.
-/

namespace Verif.Arc
open Verif.Spec (Side Slot Family Rng End)
open Verif.Rc
variable {α : Type}

/-! ## Subslices are shorter -/

/-- What a slice has been split into is shorter than itself. -/
def Conf.Shorter (c : Conf α) : Prop :=
  ∀ x v s k, c.a.b.sk.node x = some (.data v) → v.kids s = some k → ¬ sameNode v.len s = true

section
variable {a a' : Arena α}

theorem nodes_pc {pc : Pc α} {n : Next α} (s : PStep a pc a' n) {x : Nat} {v : DataV} (h : a'.b.sk.node x = some (.data v)) :
    a.b.sk.node x = some (.data v) ∨ v.kids = noKids ∨
      ∃ sd r v0 c, pc = .csCas x sd r ∧ a.b.sk.node x = some (.data v0) ∧ v = v0.setKid sd c := by
  have same : a'.b.sk.node = a.b.sk.node → a.b.sk.node x = some (.data v) := fun e => by rw [← e]; exact h
  have upd1 : ∀ {y : Nat} {w : DataV}, w.kids = noKids → a'.b.sk.node = upd a.b.sk.node y (some (.data w)) →
      a.b.sk.node x = some (.data v) ∨ v.kids = noKids := by
    intro y w hw e
    rw [e] at h
    by_cases hx : x = y
    · subst hx; rw [upd_same] at h; cases h; exact .inr hw
    · rw [upd_ne _ _ hx] at h; exact .inl h
  cases s
  case new0 xs hl r d hr e =>
    exact (upd1 rfl (root_eq' e).2.1).elim .inl fun h => .inr (.inl h)
  case new1 xs hl r h1 al d eh hr e =>
    rw [(root_eq' e).2.1] at h
    by_cases hx : x = (a.withB h1).b.sk.next
    · subst hx; rw [upd_same] at h; cases h; exact .inr (.inl rfl)
    · rw [upd_ne _ _ hx] at h
      cases eh
      have h : upd a.b.sk.node a.b.sk.next (some (.alloc (newBuf a.b xs).2)) x = some (.data v) := h
      by_cases hx : x = a.b.sk.next
      · subst hx; rw [upd_same] at h; cases h
      · rw [upd_ne _ _ hx] at h; exact .inl h
  case mutNew xs h1 r e =>
    simp only [mutFromBox] at e
    split at e
    · cases e; exact .inl h
    · cases e
      have h : upd a.b.sk.node a.b.sk.next (some (.alloc (newBuf a.b xs).2)) x = some (.data v) := h
      by_cases hx : x = a.b.sk.next
      · subst hx; rw [upd_same] at h; cases h
      · rw [upd_ne _ _ hx] at h; exact .inl h
  case immut r d e => exact (upd1 rfl (root_eq' e).2.1).elim .inl fun h => .inr (.inl h)
  case split sd r h1 new rest e => exact .inl (same (by show h1.sk.node = _; rw [regSplit_same e]))
  case nxt en r h1 o r' ts re hre e => exact .inl (same (by show h1.sk.node = _; rw [iterNext_sk e]))
  case cutF n r h1 new rest hn e => exact .inl (same (by show h1.sk.node = _; rw [(iterSplit_same e).1]))
  case cutB n r h1 new rest hn e => exact .inl (same (by show h1.sk.node = _; rw [(iterSplit_same e).1]))
  case csNew d sd v0 h1 hd e => exact .inl (same (by show h1.sk.node = _; rw [incSOpt_sk e]))
  case csWin d sd r v0 h1 c h2 hd hk e1 e2 =>
    obtain ⟨_, rfl⟩ := incS_some e2
    cases e1
    have h : upd (upd a.b.sk.node a.b.sk.next (some (.data ⟨r.buf, r.off, r.len, r.alloc, noKids⟩))) d (some (.data (v0.setKid sd a.b.sk.next))) x = some (.data v) := h
    by_cases hx : x = d
    · subst hx; rw [upd_same] at h; cases h
      exact .inr (.inr ⟨sd, r, v0, _, rfl, getData_some hd, rfl⟩)
    · rw [upd_ne _ _ hx] at h
      by_cases hx : x = a.b.sk.next
      · subst hx; rw [upd_same] at h; cases h; exact .inr (.inl rfl)
      · rw [upd_ne _ _ hx] at h; exact .inl h
  case im2 d g v0 hd hc => exact .inl (upd_none_some h).2
  case imKid c todo g r acc v0 hd hc => exact .inl (upd_none_some h).2
  all_goals first | exact .inl h | (next e => obtain ⟨_, rfl⟩ := incS_some e; exact .inl h)

theorem nodes_task {T : List AT} {t : ATask} {ts : List ATask} (I : HInv a.b (ataskT t ++ T)) (hp : aplain t) (e : ataskStep a t = .ok (a', ts)) {x : Nat} {n : Node}
    (h : a'.b.sk.node x = some n) : a.b.sk.node x = some n := by
  cases t with
  | base t =>
    obtain ⟨⟨h1, ts1⟩, e1, e2⟩ := bind_ok e
    cases pure_ok e2
    obtain ⟨h', ts', e3, _, _, hs, _⟩ := HInv.task (t := t) I hp
    rw [e1] at e3; cases e3
    exact hs.sub x n h
  | slice d g =>
    obtain ⟨⟨h1, ts1⟩, e1, e2⟩ := bind_ok e
    cases pure_ok e2
    have I1 : HInv a.b (.ref d :: (.gd g :: T)) := I
    obtain ⟨h', ts', e3, _, _, hs, _⟩ := I1.dropS
    rw [e1] at e3; cases e3
    exact hs.sub x n h
  | guard g =>
    simp only [ataskStep, Arena.dropG] at e
    split at e
    · cases e
    · split at e
      · cases e; exact h
      · split at e
        · cases e
        · cases e; exact h

end

section
variable {c c' : Conf α}

theorem Conf.Shorter.step (S : c.Shorter) (B : c.BI) {i : Nat} (e : c.step i = .ok c') : c'.Shorter := by
  intro x v s k hv hk
  cases CStep.of e with
  | none h => exact S x v s k hv hk
  | task cl t ts a' new hi ht e1 =>
    have I : HInv c.a.b (ataskT t ++ (ts.flatMap ataskT ++ (pcT cl.pc ++ c.rest i))) := by
      refine (B.heap.perm (Conf.T_perm hi)).count fun t ht' => ?_
      simp only [callT, ht, List.flatMap_cons, List.append_assoc]
    exact S x v s k (nodes_task I ((B.calls i cl hi).2 t (by simp [ht])) e1 hv) hk
  | pc cl a' n hi ht e1 =>
    rcases nodes_pc (.of e1) hv with h | h | ⟨sd, r, v0, k', h1, h2, rfl⟩
    · exact S x v s k h hk
    · rw [h] at hk; cases hk
    · have hp := (B.calls i cl hi).1
      rw [h1] at hp
      obtain ⟨_, v1, _, h3, h4, _⟩ := hp
      rw [h2] at h3; cases h3
      by_cases hs : s = sd
      · subst hs; exact h4
      · refine S x v0 s k h2 ?_
        simpa [DataV.setKid, hs] using hk

variable {P : Rules α} {zst : Bool}

theorem Conf.PReach.shorter (hP : PTame P) (h : Conf.PReach P zst c) : c.Shorter := by
  induction h with
  | init => intro x v s k hv; cases hv
  | run h i e ih => exact ih.step (h.BI hP) e
  | start _ op hp e ih => intro x v s k hv; rw [(Conf.start_T e).2] at hv; exact ih x v s k hv
  | write _ k en j x hk _ e ih =>
    rcases Conf.write_cases e with rfl | ⟨_, _, rfl⟩
    · exact ih
    · exact ih
  | panic h i e ih =>
    obtain ⟨cl, r, ts, ts', us, s, p⟩ := Panicked.of (h.BI hP).heap e
    rw [p.eq]; exact ih

end

/-! ## The measure -/

/-- As many turns as dropping the last reference to a slice of `n` items can take. -/
def dropTurns (n : Nat) : Nat := if n = 0 then 3 else 11 * n - 3

/-- As many turns as `forget_items` can take for a child of `n` items. -/
def takeTurns (n : Nat) : Nat := if n = 0 then 4 else 13 * n - 4

/-- … for a reference to slice data or to an allocation. -/
def wtD (a : Arena α) (x : Nat) : Nat := match a.b.sk.node x with
  | some (.data v) => dropTurns v.len
  | _ => 1

def wtK (a : Arena α) (x : Nat) : Nat := match a.b.sk.node x with
  | some (.data v) => takeTurns v.len
  | _ => 4

/-- … for a guard: its parents may go with it. -/
def wtG (a : Arena α) (g : Nat) : Nat := dp a (a.gOf g) + 1

def wtT (a : Arena α) : ATask → Nat
  | .base (.dropS x) => wtD a x
  | .base (.dropReg r) => 2 * r.len + 2
  | .base _ => 1
  | .slice d g => wtD a d + wtG a g
  | .guard g => wtG a g

def wtF (a : Arena α) : Fg → Nat
  | .kid c => wtK a c
  | .val w => 2 * w.len + 3

def wtP (a : Arena α) : Pc α → Nat
  | .new _ | .immut _ => 6
  | .mutNew _ | .split _ _ | .cut _ _ _ | .cl2 _ _ | .wc _ _ | .wd _ => 1
  | .nxt _ _ | .cl1 _ _ => 2
  | .gLoad _ _ _ => 5
  | .gTry _ _ _ _ _ => 4
  | .gPar _ _ _ _ => 3
  | .gCas _ _ _ _ _ => 2
  | .gRet _ _ _ => 1
  | .gm0 _ _ => 7
  | .gm1 _ _ => 6
  | .gm2 _ _ => 5
  | .gm3 _ _ => 4
  | .gm4 _ _ => 3
  | .gmOpenC _ _ _ => 2
  | .gmOpenD _ _ _ => 1
  | .im0 d g => wtK a d + wtG a g + 6
  | .im1 d g => wtK a d + wtG a g + 5
  | .im2 d g => wtK a d + wtG a g + 4
  | .imOpen _ _ => 1
  | .imFg todo g _ _ => (todo.map (wtF a)).sum + wtG a g + 3
  | .imGate g _ _ => wtG a g + 2
  | .imOk _ _ => 1
  | _ => 0

/-- As many turns as the call can still take. -/
def wtC (a : Arena α) (cl : Call α) : Nat := (cl.tasks.map (wtT a)).sum + wtP a cl.pc

/-- The calls the measure is about: none that waits for a gate, or looks for a guard that others
may be looking for. -/
def own1 (a : Arena α) (cl : Call α) : Prop := match cl.pc with
  | .wait _ _ _ | .cs _ _ | .csNew _ _ | .csCas _ _ _ | .csInc _ | .csLose _ _ | .dg0 _ _ | .dg1 _ _ | .up _ => False
  | .new _ | .immut _ => cl.on = none
  | .gLoad x fs y => cl.tasks = [] ∧ cl.on = none ∧ fs = [] ∧ x = y ∧ a.par x = none ∧ a.tgt (a.box x) = none
  | .gTry x b pend fs y => cl.tasks = [] ∧ cl.on = none ∧ pend = none ∧ fs = [] ∧ x = y ∧ a.par x = none ∧ a.box x = b ∧ a.tgt b = none
  | .gPar x b fs y => cl.tasks = [] ∧ cl.on = none ∧ fs = [] ∧ x = y ∧ a.par x = none ∧ a.box x = b
  | .gCas x b og fs y => cl.tasks = [] ∧ cl.on = none ∧ og = none ∧ fs = [] ∧ x = y ∧ a.box x = b
  | .gRet _ fs _ => cl.tasks = [] ∧ fs = []
  | _ => True

section
variable {v : DataV}

theorem drop_le (h : ∀ s k, v.kids s = some k → ¬ sameNode v.len s = true) :
    (((v.kids .L).toList.map fun _ => dropTurns (v.subLen .L)).sum + ((v.kids .R).toList.map fun _ => dropTurns (v.subLen .R)).sum) +
      (2 * v.dropRange.2 + 2) < dropTurns v.len := by
  have hL := h .L
  have hR := h .R
  simp only [sameNode, beq_iff_eq, decide_eq_true_eq] at hL hR
  cases h1 : v.kids .L <;> cases h2 : v.kids .R <;> simp only [h1, h2, DataV.dropRange, DataV.subLen, shr1', dropTurns, Option.toList, List.map_nil, List.map_cons, List.sum_nil, List.sum_cons, Nat.add_zero, Nat.zero_add]
  · split <;> omega
  · have := hR _ h2; (repeat' split) <;> omega
  · have := hL _ h1; (repeat' split) <;> omega
  · have := hR _ h2; (repeat' split) <;> omega

set_option linter.unusedSimpArgs false in
theorem take_le (h : ∀ s k, v.kids s = some k → ¬ sameNode v.len s = true) :
    (((v.kids .L).toList.map fun _ => takeTurns (v.subLen .L)).sum + ((v.kids .R).toList.map fun _ => takeTurns (v.subLen .R)).sum) + 3 < takeTurns v.len := by
  have hL := h .L
  have hR := h .R
  simp only [sameNode, beq_iff_eq, decide_eq_true_eq] at hL hR
  cases h1 : v.kids .L <;> cases h2 : v.kids .R <;> simp only [h1, h2, DataV.subLen, shr1', takeTurns, Option.toList, List.map_nil, List.map_cons, List.sum_nil, List.sum_cons, Nat.add_zero, Nat.zero_add]
  · split <;> omega
  · have := hR _ h2; (repeat' split) <;> omega
  · have := hL _ h1; (repeat' split) <;> omega
  · have := hR _ h2; (repeat' split) <;> omega

theorem drop_lt_take (n : Nat) : dropTurns n < takeTurns n := by
  simp only [dropTurns, takeTurns]; split <;> omega

end

theorem kid_len {k : Skel} (D : DShape k) {x c : Nat} {v : DataV} {s : Side} (hx : k.node x = some (.data v)) (hc : v.kids s = some c) :
    c ≠ x ∧ ∃ vc, k.node c = some (.data vc) ∧ vc.len = v.subLen s := by
  obtain ⟨h1, h2, vc, h3⟩ := D.dataKid x v s c hx hc
  have e1 := (D.dataFam x v hx).2.1
  have e2 := (D.dataFam c vc h3).2.1
  rw [h2] at e2
  have e2 : Rng.mk vc.off vc.len = ((k.fams (k.lab x).fam).rng.at (k.lab x).path).half s := e2
  rw [← e1, ← DataV.sub_rng] at e2
  exact ⟨by omega, vc, h3, congrArg Rng.len e2⟩

/-! ## What others do -/

section
variable {c c' : Conf α}

/-- Others do not change the weight of what a call holds. -/
theorem wtD_keep {T T' : List AT} {a a' : Arena α} (I : HInv a.b T) (I' : HInv a'.b T') (ev : AEvo a a') {x : Nat} (h : .ref x ∈ T) (h' : .ref x ∈ T') :
    wtD a' x = wtD a x ∧ wtK a' x = wtK a x := by
  obtain ⟨n, hn⟩ := I.live (ref_mem_aS h)
  obtain ⟨n', hn'⟩ := I'.live (ref_mem_aS h')
  have k1 := I.good.shape.kinds _ _ hn
  have k2 := I'.good.shape.kinds _ _ hn'
  rw [ev.evo.kind x (I.lt (ref_mem_aS h)), k1] at k2
  simp only [wtD, wtK, hn, hn']
  cases n with
  | data v =>
    obtain ⟨v', rfl, _, _, h1, _⟩ := ev.evo.data x v n' hn hn'
    simp only [h1, and_self]
  | _ => cases n' <;> first | (cases k2; done) | exact ⟨rfl, rfl⟩

theorem wtG_keep {a a' : Arena α} (F : GF a) (ge : GEvo a a') {g : Nat} (h : g < a.ng) : wtG a' g = wtG a g := by
  simp only [wtG, ge.gOf g h, dp_evo ge.evo.evo (F.gof g h).1]

/-- The same for all that the call is going to do. -/
theorem wtT_keep (B : c.BI) (F : c.GFI) (B' : c'.BI) (ge : GEvo c.a c'.a) {t : ATask} (h : ∀ x ∈ ataskT t, x ∈ c.T) (h' : ∀ x ∈ ataskT t, x ∈ c'.T) :
    wtT c'.a t = wtT c.a t := by
  have hg : ∀ {g}, .gd g ∈ c.T → wtG c'.a g = wtG c.a g := by
    intro g hg
    obtain ⟨v, hv, _⟩ := BI_gd B.gi hg
    exact wtG_keep F.gf ge (F.gf.lt g v hv)
  have hd : ∀ {x}, .ref x ∈ c.T → .ref x ∈ c'.T → wtD c'.a x = wtD c.a x := fun h1 h2 => (wtD_keep B.heap B'.heap ge.evo h1 h2).1
  cases t with
  | base t =>
    cases t with
    | dropS x => exact hd (h _ (by simp [ataskT, taskT])) (h' _ (by simp [ataskT, taskT]))
    | _ => rfl
  | slice d g => simp only [wtT]; rw [hd (h _ (by simp [ataskT])) (h' _ (by simp [ataskT])), hg (h _ (by simp [ataskT]))]
  | guard g => exact hg (h _ (by simp [ataskT]))

theorem wtF_keep (B : c.BI) (B' : c'.BI) (ge : GEvo c.a c'.a) {f : Fg} (h : fgT f ∈ c.T) (h' : fgT f ∈ c'.T) : wtF c'.a f = wtF c.a f := by
  cases f with
  | kid x => exact (wtD_keep B.heap B'.heap ge.evo h h').2
  | val w => rfl

theorem wtP_keep (B : c.BI) (F : c.GFI) (B' : c'.BI) (ge : GEvo c.a c'.a) {pc : Pc α} (h : ∀ x ∈ pcT pc, x ∈ c.T) (h' : ∀ x ∈ pcT pc, x ∈ c'.T) :
    wtP c'.a pc = wtP c.a pc := by
  have hg : ∀ {g}, .gd g ∈ c.T → wtG c'.a g = wtG c.a g := by
    intro g hg
    obtain ⟨v, hv, _⟩ := BI_gd B.gi hg
    exact wtG_keep F.gf ge (F.gf.lt g v hv)
  have hd : ∀ {x}, .ref x ∈ c.T → .ref x ∈ c'.T → wtK c'.a x = wtK c.a x := fun h1 h2 => (wtD_keep B.heap B'.heap ge.evo h1 h2).2
  cases pc with
  | im0 d g | im1 d g | im2 d g => simp only [wtP]; rw [hd (h _ (by simp [pcT])) (h' _ (by simp [pcT])), hg (h _ (by simp [pcT]))]
  | imGate g r acc => simp only [wtP]; rw [hg (h _ (by simp [pcT]))]
  | imFg todo g r acc =>
    simp only [wtP]; rw [hg (h _ (by simp [pcT]))]
    have : todo.map (wtF c'.a) = todo.map (wtF c.a) := by
      refine List.map_congr_left fun f hf => wtF_keep B B' ge (h _ ?_) (h' _ ?_)
      all_goals simp only [pcT, List.mem_cons, List.mem_append, List.mem_map]; exact .inr (.inr (.inr ⟨f, hf, rfl⟩))
    rw [this]
  | _ => rfl

theorem wtC_keep (B : c.BI) (F : c.GFI) (B' : c'.BI) (ge : GEvo c.a c'.a) {i : Nat} {cl : Call α} (hi : c.calls[i]? = some cl) (hi' : c'.calls[i]? = some cl) :
    wtC c'.a cl = wtC c.a cl := by
  have h : ∀ x ∈ callT cl, x ∈ c.T := fun x hx => Conf.call_tok hi hx
  have h' : ∀ x ∈ callT cl, x ∈ c'.T := fun x hx => Conf.call_tok hi' hx
  have e1 : cl.tasks.map (wtT c'.a) = cl.tasks.map (wtT c.a) := by
    refine List.map_congr_left fun t ht => wtT_keep B F B' ge (fun x hx => h x ?_) (fun x hx => h' x ?_)
    all_goals exact List.mem_append_left _ (List.mem_flatMap.2 ⟨t, ht, hx⟩)
  simp only [wtC, e1]
  rw [wtP_keep B F B' ge (fun x hx => h x (List.mem_append_right _ hx)) (fun x hx => h' x (List.mem_append_right _ hx))]

end

/-! ## What the call itself does -/

section
variable {a a' : Arena α} {T : List AT}

/-- See `Conf.Shorter`. -/
def Shorts (a : Arena α) : Prop := ∀ x v s k, a.b.sk.node x = some (.data v) → v.kids s = some k → ¬ sameNode v.len s = true

theorem dropTurns_pos (n : Nat) : 2 < dropTurns n := by simp only [dropTurns]; split <;> omega
theorem takeTurns_pos (n : Nat) : 3 < takeTurns n := by simp only [takeTurns]; split <;> omega

theorem wtD_pos (x : Nat) : 0 < wtD a x := by
  simp only [wtD]; split
  · have := dropTurns_pos (by assumption : DataV).len; omega
  · omega

theorem wtD_lt (x : Nat) : wtD a x < wtK a x := by
  simp only [wtD, wtK]; split
  · exact drop_lt_take _
  · omega

/-- The children, once their parent is gone. -/
theorem kids_wt (D : DShape a.b.sk) {x : Nat} {v : DataV} (hx : a.b.sk.node x = some (.data v)) (s : Side) :
    (((v.kids s).toList.map fun c => wtD (a.withB (a.b.kill x)) c).sum = ((v.kids s).toList.map fun _ => dropTurns (v.subLen s)).sum) ∧
    (((v.kids s).toList.map fun c => wtK (a.withB (a.b.kill x)) c).sum = ((v.kids s).toList.map fun _ => takeTurns (v.subLen s)).sum) := by
  cases hk : v.kids s with
  | none => exact ⟨rfl, rfl⟩
  | some c =>
    obtain ⟨h1, vc, h2, h3⟩ := kid_len D hx hk
    have h4 : (a.withB (a.b.kill x)).b.sk.node c = some (.data vc) := by
      show upd a.b.sk.node x none c = _
      rw [upd_ne _ _ h1]; exact h2
    simp only [Option.toList, List.map_cons, List.map_nil, List.sum_cons, List.sum_nil, wtD, wtK, h4, h3, and_self]

theorem dropS_down (S : Shorts a) {x : Nat} (I : HInv a.b (.ref x :: T)) {h' : Heap α} {ts : List Task} (e : dropStrong a.b x = .ok (h', ts)) :
    ((ts.map ATask.base).map (wtT (a.withB h'))).sum < wtD a x ∧ h'.sk.lab = a.b.sk.lab := by
  simp only [dropStrong] at e
  split at e
  · cases e
  · split at e
    · cases e; exact ⟨wtD_pos x, rfl⟩
    · split at e
      · cases e
      · next v hv =>
        cases e
        refine ⟨?_, rfl⟩
        have h := drop_le (S x v · · hv)
        simp only [wtD, hv]
        rw [← (kids_wt I.good.shape.toDShape hv .L).1, ← (kids_wt I.good.shape.toDShape hv .R).1] at h
        simpa [wtT, Function.comp_def, List.map_map, Nat.add_assoc] using h
      · next v hv => exact absurd (I.only _ _ hv) (by simp [Node.kind])
      · next v hv => exact absurd (I.only _ _ hv) (by simp [Node.kind])
      · next b hv =>
        split at e
        · cases e; exact ⟨wtD_pos x, rfl⟩
        · split at e
          · cases e; exact ⟨wtD_pos x, rfl⟩
          · cases e

theorem alloc_wt {r : Reg} (h : RegOK a.b.sk r) : ((r.alloc.toList.map Task.dropS).map fun t => wtT a (.base t)).sum ≤ 1 := by
  cases ha : r.alloc with
  | none => simp
  | some al =>
    have := h.1 al ha
    simp [wtT, wtD, this]

/-- Each pending drop gives rise to less than itself. -/
theorem task_down (S : Shorts a) (P : ParOK a) (G : GF a) {t : ATask} {new : List ATask} (I : HInv a.b (ataskT t ++ T)) (hp : aplain t)
    (e : ataskStep a t = .ok (a', new)) : (new.map (wtT a')).sum < wtT a t := by
  cases t with
  | base t =>
    obtain ⟨⟨h1, ts1⟩, e1, e2⟩ := bind_ok e
    cases pure_ok e2
    cases t with
    | dropS x => exact (dropS_down S I e1).1
    | dropRcSlice d i => exact absurd hp (by simp [aplain, plain])
    | userCode => cases e1; simp [wtT]
    | dropReg r =>
      simp only [taskStep] at e1
      split at e1
      · cases e1
        have := alloc_wt (I.regs r (by simp [ataskT, taskT]))
        simp only [wtT, List.map_map, Function.comp_def] at this ⊢
        show _ < 2 * r.len + 2
        exact Nat.lt_of_le_of_lt this (by omega)
      · split at e1
        · cases e1
        · split at e1
          · cases e1; simp only [wtT, List.map_cons, List.map_nil, List.sum_cons, List.sum_nil]; omega
          · cases e1
  | slice d g =>
    obtain ⟨⟨h1, ts1⟩, e1, e2⟩ := bind_ok e
    cases pure_ok e2
    have I1 : HInv a.b (.ref d :: (.gd g :: T)) := I
    obtain ⟨h2, h3⟩ := dropS_down S I1 e1
    have : wtG (a.withB h1) g = wtG a g := by simp only [wtG, dp, Arena.withB, h3]
    simp only [List.map_append, List.sum_append, wtT, List.map_cons, List.map_nil, List.sum_cons, List.sum_nil, this] at h2 ⊢
    omega
  | guard g =>
    have e : a.dropG g = .ok (a', new) := e
    simp only [Arena.dropG] at e
    split at e
    · cases e
    · split at e
      · cases e; simp [wtT, wtG]
      · split at e
        · cases e
        · next v hv =>
          cases e
          cases hpar : v.parent with
          | none => simp [wtT, wtG]
          | some p =>
            have h1 := dp_par P (G.link1 g v p hv hpar).2
            simp only [Option.toList, List.map_cons, List.map_nil, List.sum_cons, List.sum_nil, wtT, wtG]
            have : ∀ z, dp { a with gS := upd a.gS g 0, guard := upd a.guard g none } z = dp a z := fun _ => rfl
            simp only [this]
            omega

theorem iterNext_ts {h h1 : Heap α} {r r' : Reg} {en : End} {o : Option α} {ts : List Task} (e : iterNext h r en = .ok (h1, o, r', ts)) :
    ts = [] ∨ ts = r.alloc.toList.map .dropS := by
  simp only [iterNext] at e
  split at e
  · cases e; exact .inr rfl
  · split at e
    · cases e
    · split at e
      · cases en <;> simp only at e <;> split at e <;> cases e <;> first | exact .inr rfl | exact .inl rfl
      · cases e

theorem kill_wtF (todo : List Fg) {c : Nat} {v : DataV} (hv : a.b.sk.node c = some (.data v)) :
    (todo.map (wtF (a.withB (a.b.kill c)))).sum ≤ (todo.map (wtF a)).sum := by
  induction todo with
  | nil => exact Nat.le_refl _
  | cons f fs ih =>
    have : wtF (a.withB (a.b.kill c)) f ≤ wtF a f := by
      cases f with
      | val w => exact Nat.le_refl _
      | kid x =>
        simp only [wtF, wtK]
        show (match upd a.b.sk.node c none x with | some (.data v) => takeTurns v.len | _ => 4) ≤ _
        by_cases hx : x = c
        · subst hx; rw [upd_same, hv]; have := takeTurns_pos v.len; simp only; omega
        · rw [upd_ne _ _ hx]; exact Nat.le_refl _
    simp only [List.map_cons, List.sum_cons]; omega

/-- Each step of a call gets it on. -/
theorem pc_down (S : Shorts a) {cl : Call α} {n : Next α} (I : HInv a.b (pcT cl.pc ++ T)) (ht : cl.tasks = []) (O : own1 a cl) (s : PStep a cl.pc a' n) :
    (∃ r, cl.pc = .done r ∧ n.pc = cl.pc ∧ n.tasks = []) ∨
      (own1 a' { cl with pc := n.pc, tasks := n.tasks } ∧ (n.tasks.map (wtT a')).sum + wtP a' n.pc < wtP a cl.pc) := by
  obtain ⟨op, pc, tasks, bo, on, out⟩ := cl
  have ht : tasks = [] := ht
  subst ht
  change PStep a pc a' n at s
  change HInv a.b (pcT pc ++ T) at I
  have D := I.good.shape.toDShape
  cases s
  case done r => exact .inl ⟨r, rfl, rfl, rfl⟩
  case new0 xs hl r d hr e => cases e; exact .inr ⟨⟨rfl, O, rfl, rfl, upd_same .., by simp [Arena.newBox, upd]⟩, by simp [wtP]⟩
  case new1 xs hl r h1 al d eh hr e => cases e; exact .inr ⟨⟨rfl, O, rfl, rfl, upd_same .., by simp [Arena.newBox, upd]⟩, by simp [wtP]⟩
  case immut r d e => cases e; exact .inr ⟨⟨rfl, O, rfl, rfl, upd_same .., by simp [Arena.newBox, upd]⟩, by simp [wtP]⟩
  case gLoad x fs y v hd =>
    obtain ⟨_, h1, h2, h3, h4, h5⟩ := O
    exact .inr ⟨⟨rfl, h1, rfl, h2, h3, h4, rfl, h5⟩, by simp [wtP]⟩
  case gTryNo x b pend fs y h =>
    obtain ⟨_, h1, rfl, h2, h3, h4, h5, h6⟩ := O
    exact .inr ⟨⟨rfl, h1, h2, h3, h4, h5⟩, by simp [wtP]⟩
  case gTryOk x b pend fs y g hb hg =>
    obtain ⟨_, h1, rfl, h2, h3, h4, h5, h6⟩ := O
    rw [hb] at h6; cases h6
  case gParNo x b fs y v hd hp =>
    obtain ⟨_, h1, h2, h3, h4, h5⟩ := O
    exact .inr ⟨⟨rfl, h1, rfl, h2, h3, h5⟩, by simp [wtP]⟩
  case gParUp x b fs y v p h hd hp hs e =>
    obtain ⟨_, h1, h2, h3, h4, h5⟩ := O
    rw [hp] at h4; cases h4
  case gCasWin x b og fs y v hd hb =>
    obtain ⟨_, h1, h2, h3, h4, h5⟩ := O
    exact .inr ⟨⟨rfl, h3⟩, by simp [wtP]⟩
  case gCasLost x b og fs y v hd hb =>
    obtain ⟨_, h1, h2, h3, h4, h5⟩ := O
    exact absurd h5 hb
  case gRet1 g f fs y => obtain ⟨_, h⟩ := O; cases h
  case nxt en r h o r' ts re hre e =>
    refine .inr ⟨trivial, ?_⟩
    have h1 := alloc_wt (a := a) (I.regs r (by simp [pcT]))
    have h2 : ∀ t, wtT (a.withB h) t = wtT a t := by
      intro t
      have : h.sk = a.b.sk := iterNext_sk e
      cases t with
      | base t => cases t <;> simp [wtT, wtD, Arena.withB, this]
      | _ => simp [wtT, wtD, wtG, dp, Arena.withB, this]
    rcases iterNext_ts e with rfl | rfl
    · simp [wtP]
    · simp only [wtP, List.map_map, Function.comp_def, h2] at h1 ⊢
      omega
  case im2 d g v hd hc =>
    refine .inr ⟨trivial, ?_⟩
    have hv := getData_some hd
    have h := take_le (S d v · · hv)
    rw [← (kids_wt D hv .L).2, ← (kids_wt D hv .R).2] at h
    have e1 : wtK a d = takeTurns v.len := by simp only [wtK, hv]
    have e2 : wtG (a.withB (a.b.kill d)) g = wtG a g := rfl
    have e3 : ((kidsFg v).map (wtF (a.withB (a.b.kill d)))).sum =
        ((v.kids .L).toList.map fun c => wtK (a.withB (a.b.kill d)) c).sum + ((v.kids .R).toList.map fun c => wtK (a.withB (a.b.kill d)) c).sum := by
      simp [kidsFg, wtF, Function.comp_def]
    simp only [wtP, e1, e2, e3, List.map_nil, List.sum_nil]
    omega
  case imKid c todo g r acc v hd hc =>
    refine .inr ⟨trivial, ?_⟩
    have hv := getData_some hd
    have h := take_le (S c v · · hv)
    rw [← (kids_wt D hv .L).2, ← (kids_wt D hv .R).2] at h
    have e1 : wtK a c = takeTurns v.len := by simp only [wtK, hv]
    have e2 : wtG (a.withB (a.b.kill c)) g = wtG a g := rfl
    have e3 : ((kidsFg v).map (wtF (a.withB (a.b.kill c)))).sum =
        ((v.kids .L).toList.map fun x => wtK (a.withB (a.b.kill c)) x).sum + ((v.kids .R).toList.map fun x => wtK (a.withB (a.b.kill c)) x).sum := by
      simp [kidsFg, wtF, Function.comp_def]
    have e4 := kill_wtF todo hv
    simp only [wtP, e1, e2, e3, List.map_nil, List.sum_nil, List.map_append, List.sum_append, List.map_cons, List.sum_cons, wtF]
    omega
  case imKidNo c todo g r acc v hd hc =>
    refine .inr ⟨trivial, ?_⟩
    have := wtD_lt (a := a) c
    simp only [wtP, List.map_cons, List.sum_cons, List.map_nil, List.sum_nil, wtT, wtF]
    omega
  case imVal w todo g r acc =>
    refine .inr ⟨trivial, ?_⟩
    simp only [wtP, List.map_cons, List.sum_cons, List.map_nil, List.sum_nil, wtT, wtF]
    omega
  case imGate g r acc v hv =>
    refine .inr ⟨trivial, ?_⟩
    have e2 : wtG (a.setG g { v with cGate := false }) g = wtG a g := rfl
    simp only [wtP, List.map_cons, List.sum_cons, List.map_nil, List.sum_nil, wtT, e2]
    omega
  case im0 d g v hv hc =>
    refine .inr ⟨trivial, ?_⟩
    have e2 : wtG (a.setG g { v with cGate := true }) g = wtG a g := rfl
    have e3 : wtK (a.setG g { v with cGate := true }) d = wtK a d := rfl
    simp only [wtP, List.map_nil, List.sum_nil, e2, e3]
    omega
  all_goals first
    | exact O.elim
    | exact .inr ⟨trivial, by simp only [wtP, List.map_nil, List.sum_nil]; omega⟩

end

/-! ## All that can happen -/

section
variable {c c' : Conf α} {P : Rules α} {zst : Bool}

theorem wtC_congr {a a' : Arena α} (hs : a'.b.sk = a.b.sk) (hg : a'.gOf = a.gOf) (cl : Call α) : wtC a' cl = wtC a cl := by
  have h1 : wtD a' = wtD a := by funext x; simp only [wtD, hs]
  have h2 : wtK a' = wtK a := by funext x; simp only [wtK, hs]
  have h3 : wtG a' = wtG a := by funext x; simp only [wtG, dp, hs, hg]
  have h4 : wtF a' = wtF a := by funext f; cases f <;> simp only [wtF, h2]
  have h5 : wtT a' = wtT a := by
    funext t
    cases t with
    | base t => cases t <;> simp only [wtT, h1]
    | _ => simp only [wtT, h1, h3]
  have h6 : wtP a' cl.pc = wtP a cl.pc := by cases cl.pc <;> simp only [wtP, h2, h3, h4]
  simp only [wtC, h5, h6]

/-- The slice whose guard is looked up. -/
def looks : Pc α → Option Nat
  | .gLoad x _ _ | .gTry x _ _ _ _ | .gPar x _ _ _ | .gCas x _ _ _ _ => some x
  | _ => none

theorem own1_same {a a' : Arena α} {cl : Call α} (O : own1 a cl)
    (h : ∀ x, looks cl.pc = some x → .ref x ∈ pcT cl.pc → cl.on = none → a'.par x = a.par x ∧ a'.box x = a.box x ∧ a'.tgt (a.box x) = a.tgt (a.box x)) : own1 a' cl := by
  simp only [own1] at O ⊢
  cases hpc : cl.pc with
  | gLoad x fs y =>
    rw [hpc] at O h
    obtain ⟨h1, h2, h3, rfl, h4, h5⟩ := O
    obtain ⟨e1, e2, e3⟩ := h x rfl (by simp [pcT]) h2
    exact ⟨h1, h2, h3, rfl, by rw [e1]; exact h4, by rw [e2, e3]; exact h5⟩
  | gTry x b pend fs y =>
    rw [hpc] at O h
    obtain ⟨h1, h2, h0, h3, rfl, h4, rfl, h5⟩ := O
    obtain ⟨e1, e2, e3⟩ := h x rfl (by simp [pcT]) h2
    exact ⟨h1, h2, h0, h3, rfl, by rw [e1]; exact h4, e2, by rw [e3]; exact h5⟩
  | gPar x b fs y =>
    rw [hpc] at O h
    obtain ⟨h1, h2, h3, rfl, h4, rfl⟩ := O
    obtain ⟨e1, e2, e3⟩ := h x rfl (by simp [pcT]) h2
    exact ⟨h1, h2, h3, rfl, by rw [e1]; exact h4, e2⟩
  | gCas x b og fs y =>
    rw [hpc] at O h
    obtain ⟨h1, h2, h0, h3, rfl, rfl⟩ := O
    obtain ⟨e1, e2, e3⟩ := h x rfl (by simp [pcT]) h2
    exact ⟨h1, h2, h0, h3, rfl, e2⟩
  | _ => rw [hpc] at O; exact O

/-- Only those who have a reference to a slice publish guards of it. -/
theorem box_keep (B : c.BI) (ge : GEvo c.a c'.a) {l : Nat} (e : c.step l = .ok c') {x : Nat} (hx : x < c.a.b.sk.next)
    (hl : ∀ cl, c.calls[l]? = some cl → .ref x ∉ callT cl) : c'.a.box x = c.a.box x := by
  cases CStep.of e with
  | none h => rfl
  | task cl t ts a' new hi ht e1 =>
    show a'.box x = c.a.box x
    cases t with
    | base t => obtain ⟨_, _, e2⟩ := bind_ok e1; cases pure_ok e2; rfl
    | slice d g => obtain ⟨_, _, e2⟩ := bind_ok e1; cases pure_ok e2; rfl
    | guard g =>
      simp only [ataskStep, Arena.dropG] at e1
      split at e1
      · cases e1
      · split at e1
        · cases e1; rfl
        · split at e1 <;> cases e1
          rfl
  | pc cl a' n hi ht e1 =>
    show a'.box x = c.a.box x
    have hp := (B.calls l cl hi).1
    have ge : GEvo c.a a' := ge
    cases down_pc (n := 0) B.heap B.par hp (B.ids hi).1 ge.evo (.of e1) with
    | stay h => rw [h]
    | down hb => exact hb x hx
    | inst x' b og fs y h1 h2 nb _ hb =>
      rw [hb]
      refine upd_ne _ _ fun h => hl cl hi ?_
      subst h
      rw [h1] at hp
      simp only [callT, h1, pcT]
      exact List.mem_append_right _ (List.mem_append_right _ (Chain.held hp))
    | fg hb => rw [hb]

/-- What a call makes is its own until it returns. -/
theorem own_ref (hP : PTame P) (h : Conf.PReach P zst c) {i : Nat} {cl : Call α} (hi : c.calls[i]? = some cl) (ho : cl.on = none) {x : Nat}
    (hx : .ref x ∈ callT cl) (hk : c.a.b.sk.kind x = .data) {l : Nat} (hl : l ≠ i) {cl' : Call α} (hc : c.calls[l]? = some cl') : .ref x ∉ callT cl' := by
  intro hx'
  have B := h.BI hP
  have hf := B.heap.base.famLt x (B.heap.lt (ref_mem_aS (Conf.call_tok hi hx))) (by rw [hk]; simp)
  rcases (h.families hP (c.a.b.sk.lab x).fam).2.split hf with h1 | ⟨j, cl0, _, _, _, h1⟩
  · exact h1 i cl hi (fun y hy => by rw [ho] at hy; cases hy) _ hx hk rfl
  · by_cases hj : i = j
    · subst hj; exact h1 l cl' hl hc _ hx' hk rfl
    · exact h1 i cl hj hi _ hx hk rfl

/-- Call number `i` needs at most `n` more turns. -/
def Turn (c : Conf α) (i n : Nat) : Prop := ∃ cl, c.calls[i]? = some cl ∧ own1 c.a cl ∧ wtC c.a cl ≤ n

theorem wtT_pos (a : Arena α) (t : ATask) : 0 < wtT a t := by
  cases t with
  | base t =>
    cases t with
    | dropS x => exact wtD_pos x
    | _ => simp [wtT]
  | slice d g => simp only [wtT, wtG]; omega
  | guard g => simp [wtT, wtG]

theorem Turn.fin {i : Nat} (t : Turn c i 0) : ∃ cl, c.calls[i]? = some cl ∧ cl.fin = true := by
  obtain ⟨cl, h1, h2, h3⟩ := t
  refine ⟨cl, h1, ?_⟩
  simp only [wtC] at h3
  have h4 : cl.tasks = [] := by
    cases ht : cl.tasks with
    | nil => rfl
    | cons t ts =>
      have := wtT_pos c.a t
      simp only [ht, List.map_cons, List.sum_cons] at h3; omega
  have h5 : wtP c.a cl.pc = 0 := by omega
  simp only [own1] at h2
  simp only [Call.fin, h4, List.isEmpty_nil, Bool.true_and]
  cases hpc : cl.pc <;> rw [hpc] at h2 h5 <;> simp [wtP] at h5 <;> first | rfl | exact h2.elim

theorem Turn.other (hP : PTame P) (h : Conf.PReach P zst c) {i n l : Nat} (t : Turn c i n) (hl : l ≠ i) (e : c.step l = .ok c') : Turn c' i n := by
  obtain ⟨cl, h1, h2, h3⟩ := t
  have A := h.IA' hP
  obtain ⟨c3, e3, A', ge⟩ := A.step (i := l)
  rw [e] at e3; cases e3
  have h1' : c'.calls[i]? = some cl := by
    cases CStep.of e with
    | none h => exact h1
    | task => simp only [Conf.after]; rw [List.getElem?_set_ne hl]; exact h1
    | pc => simp only [Conf.after]; rw [List.getElem?_set_ne hl]; exact h1
  refine ⟨cl, h1', own1_same h2 fun x hk hx ho => ?_, by rw [wtC_keep A.bi A.gf A'.bi ge h1 h1']; exact h3⟩
  have hx' : .ref x ∈ callT cl := List.mem_append_right _ hx
  have hlt := A.bi.heap.lt (ref_mem_aS (Conf.call_tok h1 hx'))
  have hk : c.a.b.sk.kind x = .data := by
    have hp := (A.bi.calls i cl h1).1
    cases hpc : cl.pc <;> rw [hpc] at hp hk <;> cases hk <;> exact (Chain.data A.bi.par hp).1
  exact ⟨ge.evo.par x hlt, box_keep A.bi ge e hlt fun cl' hc => own_ref hP h h1 ho hx' hk hl hc, ge.tgt _ (A.gf.gf.box x hlt hk).1⟩

theorem Turn.own (hP : PTame P) (h : Conf.PReach P zst c) {i n : Nat} (t : Turn c i n) (e : c.step i = .ok c') : Turn c' i (n - 1) := by
  obtain ⟨cl, h1, h2, h3⟩ := t
  have A := h.IA' hP
  have S := h.shorter hP
  obtain ⟨c3, e3, A', ge⟩ := A.step (i := i)
  rw [e] at e3; cases e3
  have hlen := (List.getElem?_eq_some_iff.1 h1).1
  cases CStep.of e with
  | none h => rw [h1] at h; cases h
  | task cl0 t ts a' new hi ht e1 =>
    rw [h1] at hi; cases hi
    have I : HInv c.a.b (ataskT t ++ (ts.flatMap ataskT ++ (pcT cl.pc ++ c.rest i))) := by
      refine (A.bi.heap.perm (Conf.T_perm h1)).count fun t ht' => ?_
      simp only [callT, ht, List.flatMap_cons, List.append_assoc]
    have hd := task_down S A.bi.par A.gf.gf I ((A.bi.calls i cl h1).2 t (by simp [ht])) e1
    have hi' : (c.after i a' { cl with tasks := new ++ ts } []).calls[i]? = some { cl with tasks := new ++ ts, out := cl.out ++ [] } := by
      simp [Conf.after, hlen]
    refine ⟨_, hi', ?_, ?_⟩
    · simp only [own1] at h2 ⊢
      cases hpc : cl.pc <;> rw [hpc] at h2 <;> first | exact h2 | (obtain ⟨h4, _⟩ := h2; rw [ht] at h4; cases h4)
    · have tok : ∀ x ∈ callT cl, x ∈ c.T := fun x hx => Conf.call_tok h1 hx
      have tok' : ∀ x ∈ callT { cl with tasks := new ++ ts, out := cl.out ++ [] }, x ∈ (c.after i a' { cl with tasks := new ++ ts } []).T :=
        fun x hx => Conf.call_tok hi' hx
      have e2 : ts.map (wtT a') = ts.map (wtT c.a) := by
        refine List.map_congr_left fun t' ht' => wtT_keep A.bi A.gf A'.bi ge (fun x hx => tok x ?_) (fun x hx => tok' x ?_)
        · exact List.mem_append_left _ (List.mem_flatMap.2 ⟨t', by rw [ht]; simp [ht'], hx⟩)
        · exact List.mem_append_left _ (List.mem_flatMap.2 ⟨t', by simp [ht'], hx⟩)
      have e3 : wtP a' cl.pc = wtP c.a cl.pc :=
        wtP_keep A.bi A.gf A'.bi ge (fun x hx => tok x (List.mem_append_right _ hx)) (fun x hx => tok' x (List.mem_append_right _ hx))
      show wtC a' _ ≤ _
      simp only [wtC, List.map_append, List.sum_append, e2, e3]
      simp only [wtC, ht, List.map_cons, List.sum_cons] at h3
      omega
  | pc cl0 a' n hi ht e1 =>
    rw [h1] at hi; cases hi
    have I : HInv c.a.b (pcT cl.pc ++ c.rest i) := by
      refine (A.bi.heap.perm (Conf.T_perm h1)).count fun t ht' => ?_
      simp only [callT, ht, List.flatMap_nil, List.nil_append]
    have hi' : (c.after i a' { cl with pc := n.pc, tasks := n.tasks } n.push).calls[i]? =
        some { cl with pc := n.pc, tasks := n.tasks, out := cl.out ++ List.range' c.hs.length n.push.length } := by
      simp [Conf.after, hlen]
    refine ⟨_, hi', ?_⟩
    rcases pc_down S I ht h2 (.of e1) with ⟨r, h4, h5, h6⟩ | ⟨h4, h5⟩
    · simp only [own1, h5, h4, true_and, wtC, h6, wtP, List.map_nil, List.sum_nil]; omega
    · refine ⟨h4, ?_⟩
      show wtC a' _ ≤ _
      simp only [wtC, ht, List.map_nil, List.sum_nil] at h3 ⊢
      omega

theorem unwind_wt (a : Arena α) (h : Heap α) (ts : List ATask) : ((unwind h ts).2.map (wtT a)).sum ≤ (ts.map (wtT a)).sum := by
  induction ts generalizing h with
  | nil => exact Nat.le_refl _
  | cons t ts ih =>
    cases t with
    | base t =>
      cases t with
      | dropReg r =>
        have := ih (h.lose r)
        simp only [unwind, List.map_cons, List.sum_cons, wtT]; omega
      | _ => have := ih h; simp only [unwind, List.map_cons, List.sum_cons]; omega
    | _ => have := ih h; simp only [unwind, List.map_cons, List.sum_cons]; omega

theorem Turn.panic (hP : PTame P) (h : Conf.PReach P zst c) {i n l : Nat} (t : Turn c i n) (e : c.panic l = some c') : Turn c' i n := by
  obtain ⟨cl, h1, h2, h3⟩ := t
  obtain ⟨cl0, r, ts, ts', us, s, p⟩ := Panicked.of (h.BI hP).heap e
  have hb : c'.a.b.sk = c.a.b.sk := by rw [p.eq]; rfl
  have hg : c'.a.gOf = c.a.gOf := by rw [p.eq]; rfl
  have same : own1 c'.a = own1 c.a := by rw [p.eq]; rfl
  by_cases hl : l = i
  · subst hl
    have hlen := (List.getElem?_eq_some_iff.1 h1).1
    simp only [Conf.panic, h1] at e
    split at e
    · next r ts us ht hu =>
      have e := (Option.some.inj e).symm
      refine ⟨{ cl with pc := .done .panic, tasks := .base (.dropReg r) :: ((unwind c.a.b ts).2 ++ us) }, by rw [e]; simp [hlen], by rw [same]; exact trivial, ?_⟩
      rw [wtC_congr hb hg]
      rcases cleanup_cases hu with ⟨r', h4, rfl⟩ | ⟨x, b, og, fs, y, h4, _⟩
      · have := unwind_wt c.a c.a.b ts
        simp only [wtC, ht, h4, List.map_cons, List.sum_cons, List.append_nil, wtP] at h3 ⊢
        omega
      · simp only [own1, h4] at h2
        rw [h2.1] at ht; cases ht
    · cases e
  · refine ⟨cl, by rw [p.eq]; show (c.calls.set l _)[i]? = _; rw [List.getElem?_set_ne hl]; exact h1, by rw [same]; exact h2, ?_⟩
    rw [wtC_congr hb hg]; exact h3

theorem Turn.write {i n : Nat} (t : Turn c i n) {en : Ent} {j : Nat} {x : α} (e : c.write en j x = .ok c') : Turn c' i n := by
  obtain ⟨cl, h1, h2, h3⟩ := t
  rcases Conf.write_cases e with rfl | ⟨b, j', rfl⟩
  · exact ⟨cl, h1, h2, h3⟩
  · exact ⟨cl, h1, own1_same h2 fun _ _ _ _ => ⟨rfl, rfl, rfl⟩, by rw [wtC_congr rfl rfl]; exact h3⟩

theorem Turn.started {i n : Nat} (t : Turn c i n) {op : Op α} (e : c.start op = some c') : Turn c' i n := by
  obtain ⟨cl, h1, h2, h3⟩ := t
  have ha := (Conf.start_T e).2
  exact ⟨cl, start_calls_old e h1, by rw [ha]; exact h2, by rw [ha]; exact h3⟩

theorem Moves.reach {c1 c2 : Conf α} {is : List Nat} (m : Moves P c1 c2 is) (h : Conf.PReach P zst c1) : Conf.PReach P zst c2 := by
  induction m with
  | refl => exact h
  | step _ i e ih => exact .run ih i e
  | start _ op hp e ih => exact .start ih op hp e
  | write _ k en j x hk hw e ih => exact .write ih k en j x hk hw e
  | panic _ i e ih => exact .panic ih i e

theorem Moves.turn (hP : PTame P) {c1 c2 : Conf α} {is : List Nat} (m : Moves P c1 c2 is) (h : Conf.PReach P zst c1) {i n : Nat} (t : Turn c1 i n) :
    Turn c2 i (n - is.count i) := by
  induction m with
  | refl => simpa using t
  | step m l e ih =>
    by_cases hl : l = i
    · subst hl
      have := ih.own hP (m.reach h) e
      simpa [Nat.sub_sub] using this
    · have := ih.other hP (m.reach h) hl e
      rw [List.count_cons_of_ne hl]; exact this
  | start m op hp e ih => exact ih.started e
  | write m k en j x hk hw e ih => exact ih.write e
  | panic m l e ih => exact ih.panic hP (m.reach h) e

end
end Verif.Arc
