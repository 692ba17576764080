import Verif.Arc.Proofs.Pub5
/-!
# Guards pass on what has been done through them

Someone who finds the guard of a slice dead and puts a new one in its place has seen what the
old one passes on, provided that an unsuccessful `Weak::upgrade` acquires.
-/

namespace Verif.Arc
open Verif.Spec (Side Slot Family Rng End)
open Verif.Rc
variable {α : Type}

/-- The boxes a call has found to be without a live guard. -/
def pendB : Pc α → List Nat
  | .gLoad _ fs _ | .gTry _ _ _ fs _ | .gRet _ fs _ => fs.map (·.b)
  | .gPar _ b fs _ | .gCas _ b _ fs _ => b :: fs.map (·.b)
  | _ => []

/-- The slice that `get_mut` is about to find counted once. -/
def midB : Pc α → List Nat
  | .gm4 d _ => [d]
  | _ => []

/-- The slice that `get_mut` is about to give access to. -/
def okB : Pc α → List Nat
  | .gmOpenC d _ true | .gmOpenD d _ true => [d]
  | _ => []

/-- Calls do not begin there. -/
theorem start_begin {c c' : Conf α} {op : Op α} (h : SStep c op c') {j : Nat} {cl : Call α} (hj : c'.calls[j]? = some cl) :
    c.calls[j]? = some cl ∨ pendB cl.pc = [] ∧ midB cl.pc = [] ∧ okB cl.pc = [] := by
  rcases start_call h hj with h | ⟨_, _, _, h⟩
  · exact .inl h
  · right
    rcases h with h | h | h | h | h | h | h
    · obtain ⟨xs, h, _⟩ := h; rw [h]; exact ⟨rfl, rfl, rfl⟩
    · obtain ⟨xs, h, _⟩ := h; rw [h]; exact ⟨rfl, rfl, rfl⟩
    · obtain ⟨k, d, g, _, _, _, _, ⟨_, h⟩ | ⟨s, _, h⟩ | ⟨_, h⟩⟩ := h <;> rw [h] <;> exact ⟨rfl, rfl, rfl⟩
    · obtain ⟨k, d, g, b, _, _, _, _, ⟨_, h⟩ | ⟨_, h⟩⟩ := h <;> rw [h] <;> exact ⟨rfl, rfl, rfl⟩
    · obtain ⟨k, d, g, _, _, _, _, ⟨_, h, _⟩ | ⟨_, h, _⟩ | ⟨_, h, _⟩⟩ := h <;> rw [h] <;> exact ⟨rfl, rfl, rfl⟩
    · obtain ⟨k, d, g, b, _, _, _, _, _, h, _⟩ := h; rw [h]; exact ⟨rfl, rfl, rfl⟩
    · obtain ⟨k, r, b, _, _, _, _, ⟨_, h, _⟩ | ⟨_, _, h, _⟩ | ⟨_, _, h, _⟩ | ⟨_, _, _, h, _⟩ | ⟨_, h, _⟩⟩ := h <;> rw [h] <;> exact ⟨rfl, rfl, rfl⟩

/-- Who has found a guard dead has seen what it passes on. -/
def PendI (v : VConf α) : Prop := ∀ (i : Nat) cl b g e, v.c.calls[i]? = some cl → b ∈ pendB cl.pc → v.c.a.tgt b = some g → e ∈ v.m (.gcnt g) → e ∈ v.cv i

section
variable {a a' : Arena α}

theorem pendB_dead {pc : Pc α} (h : pcG a pc) {b : Nat} (hb : b ∈ pendB pc) : b < a.nbox ∧ DeadB a b := by
  have fr : ∀ {fs : List GFrame}, frG a fs → b ∈ fs.map (·.b) → b < a.nbox ∧ DeadB a b := by
    intro fs h hb
    obtain ⟨f, h1, rfl⟩ := List.mem_map.1 hb
    exact ⟨(h f h1).1.1, (h f h1).2⟩
  cases pc with
  | gLoad x fs y => exact fr h hb
  | gTry x b' o fs y => exact fr h.2 hb
  | gRet g fs y => exact fr h.2 hb
  | gPar x b' fs y =>
    rcases List.mem_cons.1 hb with rfl | hb
    · exact ⟨h.1.1, h.2.1⟩
    · exact fr h.2.2 hb
  | gCas x b' og fs y =>
    rcases List.mem_cons.1 hb with rfl | hb
    · exact ⟨h.1.1, h.2.1⟩
    · exact fr h.2.2.2 hb
  | _ => cases hb

theorem pendB_step {pc : Pc α} {n : Next α} (P : PStep a pc a' n) {b : Nat} (hb : b ∈ pendB n.pc) :
    b ∈ pendB pc ∨ ∃ x o fs y, pc = .gTry x b o fs y ∧ DeadB a b := by
  cases P with
  | gTryNo x b' o fs y h =>
    rcases List.mem_cons.1 hb with rfl | hb
    · exact .inr ⟨x, o, fs, y, rfl, h⟩
    · exact .inl hb
  | _ => left; simp_all [pendB]

/-- Only dropping a guard releases its count. -/
theorem callAcc_gcnt {o : Ords} {cl : Call α} {g : Nat} {r : Acc} (hr : r ∈ callAcc o a cl) (h : r.releases (.gcnt g)) : ∃ ts, cl.tasks = .guard g :: ts := by
  obtain ⟨q, rfl⟩ := h
  have drop : ∀ x, .rmw (.gcnt g) q true ∉ dropAcc a x := by
    intro x h
    simp only [dropAcc] at h
    split at h
    · split at h <;> simp at h
    · simp at h
  have unwrap : ∀ x, .rmw (.gcnt g) q true ∉ unwrapAcc a x := by
    intro x h
    simp only [unwrapAcc] at h
    split at h <;> simp at h
  have up : ∀ x, .rmw (.gcnt g) q true ∉ upAcc o a x := by
    intro x h
    simp only [upAcc] at h
    split at h <;> simp at h
  simp only [callAcc] at hr
  replace hr := (List.mem_filter.1 hr).1
  split at hr
  · next t ts ht =>
    cases t with
    | base t => cases t <;> simp_all [ataskAcc]
    | slice d g' => exact absurd hr (drop d)
    | guard g' =>
      simp only [ataskAcc, dropGAcc] at hr
      split at hr
      · have : g = g' := by simp at hr; exact hr.1
        subst this; exact ⟨ts, ht⟩
      · have : g = g' := by simp at hr; exact hr.1
        subst this; exact ⟨ts, ht⟩
  · exfalso
    generalize cl.pc = pc at hr
    cases pc with
    | up d => cases d <;> simp_all [pcAcc]
    | wd g' => cases g' <;> simp_all [pcAcc]
    | imFg todo g' r' acc =>
      cases todo with
      | nil => simp [pcAcc] at hr
      | cons f todo => cases f <;> simp_all [pcAcc]
    | cs d s => simp only [pcAcc] at hr; split at hr <;> (try split at hr) <;> simp at hr
    | csCas d s r' => simp only [pcAcc] at hr; split at hr <;> (try split at hr) <;> simp at hr
    | gTry x b' o fs y => simp only [pcAcc] at hr; split at hr <;> (try split at hr) <;> simp at hr
    | gPar x b' fs y => simp only [pcAcc] at hr; split at hr <;> simp_all
    | gCas x b' og fs y => simp only [pcAcc] at hr; split at hr <;> simp at hr
    | im2 d g' => exact unwrap d hr
    | _ => simp [pcAcc] at hr

/-- The box in a slice is replaced only together with the guard. -/
theorem box_moves {pc : Pc α} {n : Next α} (P : PStep a pc a' n) {d : Nat} (hd : d < a.b.sk.next) :
    a'.box d = a.box d ∨ ∃ b og fs y, pc = .gCas d b og fs y ∧ a.box d = b ∧ a'.tgt (a'.box d) = some a.ng ∧ n.pc = .gRet a.ng fs y := by
  cases P with
  | new0 xs hl r a1 d' hr e =>
    left
    cases e
    exact upd_ne _ _ (Nat.ne_of_lt hd)
  | new1 xs hl r h1 al a1 d' eh hr e =>
    left
    cases eh; cases e
    exact upd_ne _ _ (Nat.ne_of_lt (Nat.lt_succ_of_lt hd))
  | immut r a1 d' e =>
    left
    cases e
    exact upd_ne _ _ (Nat.ne_of_lt hd)
  | csWin d' s r v h1 c h2 hd' hk e1 e2 =>
    left
    cases e1
    exact upd_ne _ _ (Nat.ne_of_lt hd)
  | gCasWin x b og fs y v hx hb =>
    by_cases hxd : d = x
    · subst hxd
      refine .inr ⟨b, og, fs, y, rfl, hb, ?_, rfl⟩
      show upd a.tgt a.nbox (some a.ng) (upd a.box d a.nbox d) = some a.ng
      rw [upd_same, upd_same]
    · left
      exact upd_ne _ _ hxd
  | _ => exact .inl rfl

theorem box_task {t : ATask} {ts : List ATask} (e : ataskStep a t = .ok (a', ts)) : a'.box = a.box := by
  cases t with
  | base t =>
    obtain ⟨⟨h', ts'⟩, e1, e2⟩ := bind_ok e
    cases pure_ok e2; rfl
  | slice d g =>
    obtain ⟨⟨h', ts'⟩, e1, e2⟩ := bind_ok e
    cases pure_ok e2; rfl
  | guard g =>
    simp only [ataskStep, Arena.dropG] at e
    split at e
    · cases e
    · split at e
      · cases e; rfl
      · split at e <;> cases e; rfl

end

section
variable {o : Ords} {v v' : VConf α} {i e : Nat} {cl cl' : Call α} {push : List Ent} {U R N : List AT} {V : View}

/-- A dead guard passes on what its count does. -/
theorem KnG.dead (B : v.c.BI) {g : Nat} (h : KnG v e g) (hg : v.c.a.gS g = 0) : e ∈ v.m (.gcnt g) := by
  have L := Arc.GI.strong B.gi g
  have no : g ∉ aGd v.c.T := by
    intro h
    have := List.count_pos_iff.2 h
    omega
  cases h with
  | cnt h => exact h
  | ent hk hx h =>
    obtain ⟨t, ht, hx⟩ := List.mem_flatMap.1 hx
    exact absurd (mem_aGd (Conf.get_tok' hk ht) hx) no
  | call hj hx h =>
    obtain ⟨t, ht, hx⟩ := List.mem_flatMap.1 hx
    exact absurd (mem_aGd (Conf.call_tok hj ht) hx) no
  | link hh hp h =>
    have := prefs_pos (Arc.GI.lt B.gi hh) hh hp
    omega

/-- Nobody changes what a dead guard passes on. -/
theorem VStp.dead_m (S : VStp o v v' i cl cl' push U R N V) (B : v.c.BI) {g : Nat} (hg : v.c.a.gS g = 0) : v'.m (.gcnt g) = v.m (.gcnt g) := by
  rw [S.rel, Acc.runs_from]
  intro r hr
  refine ⟨fun h => ?_, callAcc_store (by trivial) r hr⟩
  obtain ⟨ts, ht⟩ := callAcc_gcnt hr h
  obtain ⟨_, _, h2⟩ := BI_gd B.gi (Conf.call_tok S.hi (t := .gd g) (by simp [callT, ht, ataskT]))
  exact h2 hg

theorem PendI.step (hf : o.fail = true) (I : PendI v) (B : v.c.BI) (F : v.c.GFI) (ge : GEvo v.c.a v'.c.a) (e : v.step o i = .ok v') : PendI v' := by
  rcases VStp.of B e with ⟨_, rfl⟩ | ⟨cl, cl', push, U, R, N, V, S⟩
  · exact I
  intro j clj b g e hj hb hg he
  -- boxes found before
  have old : ∀ clj', v.c.calls[j]? = some clj' → b ∈ pendB clj'.pc → e ∈ v'.cv j := by
    intro clj' h1 h2
    obtain ⟨h3, h4⟩ := pendB_dead (F.calls j clj' h1).1 h2
    rw [ge.tgt b h3] at hg
    rw [S.dead_m B (h4 g hg)] at he
    exact S.in_cv (I j clj' b g e h1 h2 hg he)
  by_cases hij : j = i
  · subst hij
    rw [S.self] at hj; cases hj
    rcases S.how with ⟨t, ts, new, ht, e2, rfl, rfl, rfl, rfl⟩ | ⟨n, ht, hs, rfl, rfl, rfl, rfl⟩
    · exact old cl S.hi hb
    · rcases pendB_step hs hb with h | ⟨x, p, fs, y, h, hd⟩
      · exact old cl S.hi h
      · have hb' : b < v.c.a.nbox := by
          have := (F.calls j cl S.hi).1
          rw [h] at this
          exact this.1.1
        rw [ge.tgt b hb'] at hg
        have h0 := hd g hg
        rw [S.dead_m B h0] at he
        refine S.cv_V (.inl ?_)
        rw [S.view]
        refine Acc.runs_acq (callAcc_store (by trivial)) (a := .load (.gcnt g) true) ?_ (.inl rfl) he
        simp [callAcc, ht, h, pcAcc, hg, h0, hf, Acc.onWeak]
  · exact old clj ((S.other hij).symm.trans hj) hb

theorem PendI.start {op : Op α} {X : View} (I : PendI v) (e : v.start op X = some v') (ec : v.c.start op = some v'.c) : PendI v' := by
  have S : VSta true v v' := .of e
  intro i cl b g e hi hb hg he
  rw [S.a] at hg
  rw [S.m] at he
  rcases start_begin (.of ec) hi with h | h
  · rw [(S.call i cl h).2]
    exact I i cl b g e h hb hg he
  · rw [h.1] at hb; cases hb

theorem PendI.grow (S : VGrow v v') (ht : v'.c.a.tgt = v.c.a.tgt) (I : PendI v) : PendI v' := by
  intro i cl b g e hi hb hg he
  rw [S.cv]
  exact I i cl b g e (S.calls ▸ hi) hb (ht ▸ hg) (S.m ▸ he)

end
end Verif.Arc
