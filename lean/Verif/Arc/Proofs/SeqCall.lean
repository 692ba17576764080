import Verif.Arc.Proofs.SeqQuiet
import Verif.Arc.Proofs.Child
/-!
# One call, run on its own

What a call leaves alone while it runs, and what it has returned when nobody interferes.
-/

namespace Verif.Arc
open Verif.Spec (Side Slot Family Rng End)
open Verif.Rc
variable {α : Type}

/-- Nothing new: no buffer and no family has come, items only went. -/
structure Keep (h h' : Heap α) : Prop where
  zst : h'.sk.zst = h.sk.zst
  nbuf : h'.sk.nbuf = h.sk.nbuf
  blen : h'.sk.blen = h.sk.blen
  nfam : h'.sk.nfam = h.sk.nfam
  fams : h'.sk.fams = h.sk.fams
  mem : ∀ b, h'.sk.mem b = true → h.sk.mem b = true
  slot : ∀ b i, h'.slot b i = h.slot b i ∨ ((∃ x, h.slot b i = .live x) ∧ h'.slot b i = .dropped)

theorem Keep.refl (h : Heap α) : Keep h h := ⟨rfl, rfl, rfl, rfl, rfl, fun _ h => h, fun _ _ => .inl rfl⟩

theorem Keep.trans {a b c : Heap α} (h1 : Keep a b) (h2 : Keep b c) : Keep a c where
  zst := h2.zst.trans h1.zst
  nbuf := h2.nbuf.trans h1.nbuf
  blen := h2.blen.trans h1.blen
  nfam := h2.nfam.trans h1.nfam
  fams := h2.fams.trans h1.fams
  mem x h := h1.mem x (h2.mem x h)
  slot x i := by
    rcases h1.slot x i with e1 | ⟨e1, e2⟩ <;> rcases h2.slot x i with f1 | ⟨f1, f2⟩
    · exact .inl (f1.trans e1)
    · exact .inr ⟨by rw [← e1]; exact f1, f2⟩
    · exact .inr ⟨e1, by rw [f1]; exact e2⟩
    · exact .inr ⟨e1, f2⟩

theorem Keep.shrink {h h' : Heap α} (s : Shrink h h') : Keep h h' :=
  ⟨by rw [s.sk], by rw [s.sk], by rw [s.sk], by rw [s.sk], by rw [s.sk], s.mem, s.slot⟩

/-- Calls that bring something new in their first step. -/
def calm : Pc α → Prop
  | .new _ | .mutNew _ | .immut _ | .nxt _ _ => False
  | _ => True

section
variable {a a' : Arena α} {T : List AT}

theorem keep_task {t : ATask} {ts : List ATask} (I : HInv a.b (ataskT t ++ T)) (hp : aplain t) (e : ataskStep a t = .ok (a', ts)) :
    Keep a.b a'.b := by
  cases t with
  | base t =>
    obtain ⟨⟨h1, ts1⟩, e1, e2⟩ := bind_ok e
    cases pure_ok e2
    obtain ⟨h', ts', e3, _, _, s, _⟩ := HInv.task (t := t) I hp
    rw [e1] at e3; cases e3
    exact .shrink s
  | slice d g =>
    obtain ⟨⟨h1, ts1⟩, e1, e2⟩ := bind_ok e
    cases pure_ok e2
    have I1 : HInv a.b (.ref d :: (.gd g :: T)) := I
    obtain ⟨h', ts', e3, _, _, s, _⟩ := I1.dropS
    rw [e1] at e3; cases e3
    exact .shrink s
  | guard g =>
    simp only [ataskStep, Arena.dropG] at e
    split at e
    · cases e
    · split at e
      · cases e; exact .refl _
      · split at e <;> cases e
        exact .refl _

theorem Keep.sk {h h' : Heap α} (e : h'.sk = h.sk)
    (s : ∀ b i, h'.slot b i = h.slot b i ∨ ((∃ x, h.slot b i = .live x) ∧ h'.slot b i = .dropped)) : Keep h h' :=
  ⟨by rw [e], by rw [e], by rw [e], by rw [e], by rw [e], by rw [e]; exact fun _ h => h, s⟩

theorem keep_pc {pc : Pc α} {n : Next α} (I : HInv a.b (pcT pc ++ T)) (e : PStep a pc a' n) (hp : calm pc) : Keep a.b a'.b := by
  have sl : ∀ b i, a'.b.slot b i = a.b.slot b i ∨ ((∃ x, a.b.slot b i = .live x) ∧ a'.b.slot b i = .dropped) := by
    intro b i
    rcases slots_pc I e b i with h | ⟨_, x, xs, h | h, _⟩ | ⟨x, en, r, h, _⟩
    · exact .inl h
    all_goals subst h; exact False.elim hp
  have same : ∀ {h h' : Heap α} {x : Nat}, h.incS x = .ok h' → h'.sk = h.sk := by
    intro h h' x e; obtain ⟨_, rfl⟩ := incS_some e; rfl
  cases e with
  | new0 | new1 | mutNew | immut | nxt => exact False.elim hp
  | split s r h new rest e =>
    refine .sk ?_ sl
    simp only [regSplitOff] at e
    split at e <;>
    · obtain ⟨h2, e1, e2⟩ := bind_ok e
      cases pure_ok e2
      exact incSOpt_sk e1
  | cutF n r h new rest hn e =>
    obtain ⟨h', a1, a2, e', _, ek, _⟩ := HInv.cutF (T := T) (r := r) I hn
    rw [e] at e'; cases e'; exact .sk ek sl
  | cutB n r h new rest hn e =>
    obtain ⟨h', a1, a2, e', _, ek, _⟩ := HInv.cutB (T := T) (r := r) I hn
    rw [e] at e'; cases e'; exact .sk ek sl
  | cl1 d g h e => exact .sk (same e) sl
  | csSame d s v h hd hs e => exact .sk (same e) sl
  | csInc c h e => exact .sk (same e) sl
  | csNew d s v h hd e => exact .sk (incSOpt_sk e) sl
  | csWin d s r v h1 c h2 hd hk e1 e2 =>
    have e3 := same e2
    cases e1
    refine ⟨?_, ?_, ?_, ?_, ?_, ?_, sl⟩
    all_goals first
      | (show h2.sk.zst = _; rw [e3])
      | (show h2.sk.nbuf = _; rw [e3])
      | (show h2.sk.blen = _; rw [e3])
      | (show h2.sk.nfam = _; rw [e3])
      | (show h2.sk.fams = _; rw [e3])
      | (intro b hb; have hb : h2.sk.mem b = true := hb; rw [e3] at hb; exact hb)
  | csLose c r h e => exact .sk (same e) sl
  | gParUp x b fs y v p h hd hp hs e => exact .sk (same e) sl
  | up d h hs e => exact .sk (same e) sl
  | _ => first | exact .refl _ | exact ⟨rfl, rfl, rfl, rfl, rfl, fun _ h => h, sl⟩

end

/-! ## What a call is going to return -/

/-- What the call in question does, provided that nobody interferes. -/
inductive Tgt (α : Type) where
  /-- it returns a handle to the place `L` of the tree -/
  | share (L : Lab)
  /-- `get_mut` that succeeds or not -/
  | getm (d g : Nat) (ok : Bool)
  /-- `into_mut` that does not succeed -/
  | refuse (d g : Nat)
  /-- `into_mut` that succeeds -/
  | take (r : Reg)
  /-- `downgrade` -/
  | down (d g : Nat)
  /-- it returns exactly this -/
  | exact (r : Res α) (es : List Ent)

/-- Only one handle there. -/
def Lone (a : Arena α) (d g : Nat) : Prop := a.gS g = 1 ∧ a.b.strong d = 1

def Tgt.pcS (a : Arena α) : Tgt α → Pc α → Prop
  | .share L, .cl1 d _ | .share L, .cl2 d _ => a.b.sk.lab d = L ∧ d < a.b.sk.next
  | .share L, .wait d _ s | .share L, .cs d s | .share L, .csNew d s | .share L, .csCas d s _ =>
    tgtL a d s = L
  | .share L, .csInc c | .share L, .csLose c _ => a.b.sk.lab c = L
  | .share L, .gLoad _ _ y | .share L, .gTry _ _ _ _ y | .share L, .gPar _ _ _ y | .share L, .gCas _ _ _ _ y | .share L, .gRet _ _ y =>
    a.b.sk.lab y = L
  | .share L, .up d => ∃ x, d = some x ∧ a.b.sk.lab x = L ∧ a.b.strong x ≠ 0
  | .down d g, .dg0 d' g' | .down d g, .dg1 d' g' => d' = d ∧ g' = g
  | .getm d g ok, .gm0 d' g' => d' = d ∧ g' = g ∧ (∀ v, a.guard g = some v → v.cGate = false ∧ v.dGate = false) ∧
    (ok = true ↔ a.gW g = 1 ∧ Lone a d g)
  | .getm d g ok, .gm1 d' g' => d' = d ∧ g' = g ∧ (∀ v, a.guard g = some v → v.cGate = false) ∧ (ok = true ↔ a.gW g = 1 ∧ Lone a d g)
  | .getm d g ok, .gm2 d' g' => d' = d ∧ g' = g ∧ (∀ v, a.guard g = some v → v.cGate = false) ∧ (ok = true ↔ Lone a d g)
  | .getm d g ok, .gm3 d' g' => d' = d ∧ g' = g ∧ (ok = true ↔ Lone a d g)
  | .getm d g ok, .gm4 d' g' => d' = d ∧ g' = g ∧ a.gS g = 1 ∧ (ok = true ↔ Lone a d g)
  | .getm d g ok, .gmOpenC d' g' ok' | .getm d g ok, .gmOpenD d' g' ok' => d' = d ∧ g' = g ∧ ok' = ok
  | .refuse d g, .im0 d' g' => d' = d ∧ g' = g ∧ ¬ Lone a d g
  | .refuse d g, .im1 d' g' => d' = d ∧ g' = g ∧ ¬ Lone a d g
  | .refuse d g, .im2 d' g' => d' = d ∧ g' = g ∧ a.gS g = 1 ∧ ¬ Lone a d g
  | .refuse d g, .imOpen d' g' => d' = d ∧ g' = g
  | .take r, .im0 d g => (∀ v, a.guard g = some v → v.cGate = false) ∧ Lone a d g ∧
    ∀ v, a.b.sk.node d = some (.data v) → r = ⟨v.buf, v.off, v.len, v.alloc⟩
  | .take r, .im1 d g => Lone a d g ∧ ∀ v, a.b.sk.node d = some (.data v) → r = ⟨v.buf, v.off, v.len, v.alloc⟩
  | .take r, .im2 d g => Lone a d g ∧ ∀ v, a.b.sk.node d = some (.data v) → r = ⟨v.buf, v.off, v.len, v.alloc⟩
  | .take r, .imFg _ _ r' _ | .take r, .imGate _ r' _ | .take r, .imOk r' _ => r' = r
  | _, _ => False

/-- Points at which drops may be pending. -/
def loose : Pc α → Prop
  | .gLoad .. | .gTry .. | .gPar .. | .gCas .. | .gRet .. | .imFg .. | .imGate .. | .imOk .. | .done _ => True
  | _ => False

/-- What was returned. -/
def Tgt.res (a : Arena α) : Tgt α → Res α → List Ent → Prop
  | .share L, r, es => r = .handle ∧ ∃ d g, es = [⟨.strong d g, false⟩] ∧ a.b.sk.lab d = L
  | .getm d g ok, r, es => r = (if ok then .handle else .none) ∧ es = [⟨.strong d g, ok⟩]
  | .refuse d g, r, es => r = .err ∧ es = [⟨.strong d g, false⟩]
  | .take r0, r, es => r = .handle ∧ es = [⟨.uniq r0, false⟩]
  | .down d g, r, es => r = .handle ∧ es = [⟨.weak (some d) (some g), false⟩]
  | .exact r0 es0, r, es => r = r0 ∧ es = es0

section
variable {a a' : Arena α} {T : List AT} {bh : Option Handle} {k : Tgt α} {pc : Pc α} {n : Next α}

theorem Tgt.calm (h : k.pcS a pc) : calm pc := by
  cases k <;> cases pc <;> first | trivial | exact False.elim h

theorem Tgt.not_done {r : Res α} (h : k.pcS a (.done r)) : False := by cases k <;> exact h

theorem Tgt.loose (h : k.pcS a pc) (e : PStep a pc a' n) : n.tasks = [] ∨ loose n.pc := by
  cases e <;> first | exact .inl rfl | exact .inr trivial | (cases k <;> exact False.elim h)

/-- At a loose point, drops do not matter. -/
theorem Tgt.stable (I : HInv a.b T) (hp : pcOK a bh pc) (hl : Arc.loose pc) (e : AEvo a a') (h : k.pcS a pc) : k.pcS a' pc := by
  have lab : ∀ {y}, goal pc = some y → a'.b.sk.lab y = a.b.sk.lab y := fun hy => e.evo.lab _ (goal_lt I hp hy)
  cases k <;> cases pc <;> first
    | exact False.elim hl
    | exact False.elim h
    | exact h
    | (simp only [Tgt.pcS] at h ⊢; rw [lab rfl]; exact h)

theorem Tgt.step (I : HInv a.b T) (hp : pcOK a bh pc) (h : k.pcS a pc) (e : PStep a pc a' n) (ev : AEvo a a') :
    (k.pcS a' n.pc ∧ n.push = []) ∨ ∃ r, n.pc = .done r ∧ k.res a' r n.push := by
  have S := I.good.shape.toDShape
  have tg : ∀ {d v s}, a.b.getData d = .ok v → tgtL a d s = if sameNode v.len s then a.b.sk.lab d else (a.b.sk.lab d).child s := by
    intro d v s h; simp only [tgtL, getData_some h]
  have tsk : ∀ {h : Heap α} {d s}, h.sk = a.b.sk → tgtL (a.withB h) d s = tgtL a d s := by
    intro h d s e; simp only [tgtL, Arena.withB, e]
  have same : ∀ {h h' : Heap α} {x : Nat}, h.incS x = .ok h' → h'.sk = h.sk := by
    intro h h' x e; obtain ⟨_, rfl⟩ := incS_some e; rfl
  have setg : ∀ {g : Nat} {v w : GuardV}, (a.setG g w).guard g = some v → v = w := by
    intro g v w h; simp [Arena.setG, upd] at h; exact h.symm
  cases k with
  | exact r es => exact False.elim h
  | share L =>
    cases e
    all_goals try exact False.elim h
    case cl1 d g h1 e => exact .inl ⟨⟨by rw [← h.1]; show h1.sk.lab d = _; rw [same e], by show d < h1.sk.next; rw [same e]; exact h.2⟩, rfl⟩
    case cl2 d g hg => exact .inr ⟨_, rfl, rfl, d, g, rfl, h.1⟩
    case waitC d g s v hv hc => exact .inl ⟨h, rfl⟩
    case waitO d g s v hv hc => exact .inl ⟨h, rfl⟩
    case csSame d s v h1 hd hs e =>
      refine .inl ⟨?_, rfl⟩
      have h2 : tgtL a d s = L := h
      rw [tg hd, if_pos hs] at h2
      rw [← h2]; show h1.sk.lab d = _; rw [same e]
    case csKid d s v c hd hs hk =>
      refine .inl ⟨?_, rfl⟩
      have h2 : tgtL a d s = L := h
      rw [tg hd, if_neg hs] at h2
      rw [← h2]; exact (S.dataKid d v s c (getData_some hd) hk).2.1
    case csNo d s v hd hs hk => exact .inl ⟨h, rfl⟩
    case csInc c h1 e =>
      refine .inl ⟨?_, rfl⟩
      have h2 : a.b.sk.lab c = L := h
      rw [← h2]; show h1.sk.lab c = _; rw [same e]
    case csNew d s v h1 hd e =>
      refine .inl ⟨?_, rfl⟩
      have h2 : tgtL a d s = L := h
      rw [← h2]; exact tsk (incSOpt_sk e)
    case csWin d s r v h1 c h2 hd hk e1 e2 =>
      refine .inl ⟨?_, rfl⟩
      have h3 : tgtL a d s = L := h
      obtain ⟨g, w, _, hw, hs, _⟩ := hp
      have : w = v := by rw [getData_some hd] at hw; cases hw; rfl
      subst this
      rw [tg hd, if_neg hs] at h3
      rw [← h3]
      show h2.sk.lab c = _
      rw [same e2]
      cases e1
      simp [upd]
    case csLost d s r v c hd hk =>
      refine .inl ⟨?_, rfl⟩
      have h3 : tgtL a d s = L := h
      obtain ⟨g, w, _, hw, hs, _⟩ := hp
      have : w = v := by rw [getData_some hd] at hw; cases hw; rfl
      subst this
      rw [tg hd, if_neg hs] at h3
      rw [← h3]; exact (S.dataKid d w s c (getData_some hd) hk).2.1
    case csLose c r h1 e =>
      refine .inl ⟨?_, rfl⟩
      have h2 : a.b.sk.lab c = L := h
      rw [← h2]; show h1.sk.lab c = _; rw [same e]
    case gRet0 g y => exact .inr ⟨_, rfl, rfl, y, g, rfl, h⟩
    case gParUp x b fs y v p h1 hd hpp hs e =>
      refine .inl ⟨?_, rfl⟩
      have h2 : a.b.sk.lab y = L := h
      rw [← h2]; show h1.sk.lab y = _; rw [same e]
    case upN => obtain ⟨x, h1, _⟩ := h; cases h1
    case upNo d hs => obtain ⟨x, h1, _, h2⟩ := h; cases h1; exact absurd hs h2
    case up d h1 hs e =>
      refine .inl ⟨?_, rfl⟩
      obtain ⟨x, h2, h3, _⟩ := h
      cases h2
      rw [← h3]; show h1.sk.lab d = _; rw [same e]
    all_goals exact .inl ⟨h, rfl⟩
  | getm d g ok =>
    cases e
    all_goals try exact False.elim h
    case gm0No v hv hc =>
      obtain ⟨rfl, rfl, h1, _⟩ := h
      rw [(h1 v hv).2] at hc; cases hc
    case gm0 v hv hc =>
      obtain ⟨rfl, rfl, h1, h3⟩ := h
      refine .inl ⟨⟨rfl, rfl, fun w hw => ?_, h3⟩, rfl⟩
      rw [setg hw]; exact (h1 v hv).1
    case gm1No v hv hc =>
      obtain ⟨rfl, rfl, h1, h3⟩ := h
      refine .inl ⟨⟨rfl, rfl, ?_⟩, rfl⟩
      cases ok with
      | false => rfl
      | true => exact absurd (h3.1 rfl).1 hc
    case gm1 v hv hc =>
      obtain ⟨rfl, rfl, h1, h3⟩ := h
      exact .inl ⟨⟨rfl, rfl, h1, h3.trans ⟨fun h => h.2, fun h => ⟨hc, h⟩⟩⟩, rfl⟩
    case gm2No v hv hc => obtain ⟨rfl, rfl, h1, h3⟩ := h; rw [h1 v hv] at hc; cases hc
    case gm2 v hv hc => obtain ⟨rfl, rfl, h1, h3⟩ := h; exact .inl ⟨⟨rfl, rfl, h3⟩, rfl⟩
    case gm3No v hv hc =>
      obtain ⟨rfl, rfl, h3⟩ := h
      refine .inl ⟨⟨rfl, rfl, ?_⟩, rfl⟩
      cases ok with
      | false => rfl
      | true => exact absurd (h3.1 rfl).1 hc
    case gm3 v hv hc => obtain ⟨rfl, rfl, h3⟩ := h; exact .inl ⟨⟨rfl, rfl, hc, h3⟩, rfl⟩
    case gm4No v hd hc =>
      obtain ⟨rfl, rfl, _, h3⟩ := h
      refine .inl ⟨⟨rfl, rfl, ?_⟩, rfl⟩
      cases ok with
      | false => rfl
      | true => exact absurd (h3.1 rfl).2 hc
    case gm4 v hd hc => obtain ⟨rfl, rfl, h2, h3⟩ := h; exact .inl ⟨⟨rfl, rfl, (h3.2 ⟨h2, hc⟩).symm⟩, rfl⟩
    case gmOpenC v hv => obtain ⟨rfl, rfl, rfl⟩ := h; exact .inl ⟨⟨rfl, rfl, rfl⟩, rfl⟩
    case gmOpenD v hv => obtain ⟨rfl, rfl, rfl⟩ := h; exact .inr ⟨_, rfl, rfl, rfl⟩
  | refuse d g =>
    cases e
    all_goals try exact False.elim h
    case im0No v hv hc => obtain ⟨rfl, rfl, h1⟩ := h; exact .inr ⟨_, rfl, rfl, rfl⟩
    case im0 v hv hc => obtain ⟨rfl, rfl, h1⟩ := h; exact .inl ⟨⟨rfl, rfl, h1⟩, rfl⟩
    case im1No v hv hc => obtain ⟨rfl, rfl, h1⟩ := h; exact .inl ⟨⟨rfl, rfl⟩, rfl⟩
    case im1 v hv hc => obtain ⟨rfl, rfl, h1⟩ := h; exact .inl ⟨⟨rfl, rfl, hc, h1⟩, rfl⟩
    case im2No v hd hc => obtain ⟨rfl, rfl, h1⟩ := h; exact .inl ⟨⟨rfl, rfl⟩, rfl⟩
    case im2 v hd hc => obtain ⟨rfl, rfl, h1, h2⟩ := h; exact absurd ⟨h1, hc⟩ h2
    case imOpen v hv => obtain ⟨rfl, rfl⟩ := h; exact .inr ⟨_, rfl, rfl, rfl⟩
  | down d g =>
    cases e
    all_goals try exact False.elim h
    case dg0C v hv hc => obtain ⟨rfl, rfl⟩ := h; exact .inl ⟨⟨rfl, rfl⟩, rfl⟩
    case dg0O v hv hc => obtain ⟨rfl, rfl⟩ := h; exact .inl ⟨⟨rfl, rfl⟩, rfl⟩
    case dg1 v hv => obtain ⟨rfl, rfl⟩ := h; exact .inr ⟨_, rfl, rfl, rfl⟩
  | take r =>
    cases e
    all_goals try exact False.elim h
    case im0No v hv hc => rw [h.1 v hv] at hc; cases hc
    case im0 v hv hc => exact .inl ⟨h.2, rfl⟩
    case im1No v hv hc => exact absurd h.1.1 hc
    case im1 v hv hc => exact .inl ⟨h, rfl⟩
    case im2No v hd hc => exact absurd h.1.2 hc
    case im2 v hd hc => exact .inl ⟨(h.2 v (getData_some hd)).symm, rfl⟩
    case imOk r' acc => cases h; exact .inr ⟨_, rfl, rfl, rfl⟩
    all_goals exact .inl ⟨h, rfl⟩

end

/-! ## Running it -/

/-- Call `i` is on its way to `k`; before it, the heap was `h0` and the handles were `hs0`. -/
structure SI (h0 : Heap α) (hs0 : List (Option Ent)) (i : Nat) (k : Tgt α) (c : Conf α) : Prop where
  keep : Keep h0 c.a.b
  next : h0.sk.next ≤ c.a.b.sk.next
  lab : ∀ x, x < h0.sk.next → c.a.b.sk.lab x = h0.sk.lab x
  others : ∀ (j : Nat) cl, c.calls[j]? = some cl → j ≠ i → cl.fin = true
  cl : ∃ cl, c.calls[i]? = some cl ∧
    (((cl.tasks = [] ∨ loose cl.pc) ∧ k.pcS c.a cl.pc ∧ c.hs = hs0 ∧ cl.out = []) ∨
     (∃ r es, cl.pc = .done r ∧ c.hs = hs0 ++ es.map some ∧ cl.out = List.range' hs0.length es.length ∧ k.res c.a r es ∧
        ∀ d g b, ⟨.strong d g, b⟩ ∈ es → d < c.a.b.sk.next))

section
variable {P : Rules α} {zst : Bool} {c c' : Conf α} {h0 : Heap α} {hs0 : List (Option Ent)} {i : Nat} {k : Tgt α}

theorem SI.step (hP : Tame P) (h : Conf.Reach P zst c) (s : SI h0 hs0 i k c) (e : c.step i = .ok c') : SI h0 hs0 i k c' := by
  have B := h.BI hP
  obtain ⟨c2, e2, ev⟩ := h.step hP i
  rw [e] at e2; cases e2
  have B' := (Conf.Reach.run h i e).BI hP
  obtain ⟨cl, hcl, hs⟩ := s.cl
  have others : ∀ (j : Nat) cl, c'.calls[j]? = some cl → j ≠ i → cl.fin = true := by
    intro j clj hj hji
    cases CStep.of e with
    | none _ => exact s.others j clj hj hji
    | task cl t ts a' new hi _ _ =>
      rcases after_calls hi hj with ⟨h1, _⟩ | ⟨_, h1⟩
      · exact absurd h1 hji
      · exact s.others j clj h1 hji
    | pc cl a' n hi _ _ =>
      rcases after_calls hi hj with ⟨h1, _⟩ | ⟨_, h1⟩
      · exact absurd h1 hji
      · exact s.others j clj h1 hji
  have nx : h0.sk.next ≤ c'.a.b.sk.next := Nat.le_trans s.next ev.evo.evo.next
  have lb : ∀ x, x < h0.sk.next → c'.a.b.sk.lab x = h0.sk.lab x := fun x hx =>
    (ev.evo.evo.lab x (Nat.lt_of_lt_of_le hx s.next)).trans (s.lab x hx)
  have slen := (List.getElem?_eq_some_iff.1 hcl).1
  have tgtStable : ∀ {r es}, k.res c.a r es → (∀ d g b, ⟨.strong d g, b⟩ ∈ es → d < c.a.b.sk.next) → k.res c'.a r es := by
    intro r es h1 h2
    cases k with
    | share L =>
      obtain ⟨h3, d, g, rfl, h4⟩ := h1
      exact ⟨h3, d, g, rfl, by rw [ev.evo.evo.lab d (h2 d g _ (List.mem_singleton.2 rfl))]; exact h4⟩
    | _ => exact h1
  cases CStep.of e with
  | none hn => rw [hcl] at hn; cases hn
  | task cl2 t ts a' new hi ht e1 =>
    rw [hcl] at hi; cases hi
    have pT := Conf.T_perm hcl
    have hpl := (B.calls i cl hcl).2 t (by rw [ht]; exact List.mem_cons_self ..)
    obtain ⟨R, hR⟩ : ∃ R, HInv c.a.b (ataskT t ++ R) := by
      refine ⟨ts.flatMap ataskT ++ (pcT cl.pc ++ c.rest i), B.heap.perm (pT.trans ?_)⟩
      simp only [callT, ht, List.flatMap_cons, List.append_assoc]
      first | exact .refl _ | exact List.perm_append_comm_assoc _ _ _ | (
        refine (List.perm_append_comm_assoc _ _ _).trans (.append_left _ ?_)
        exact List.perm_append_comm_assoc _ _ _)
    refine ⟨s.keep.trans (keep_task hR hpl e1), nx, lb, others, ⟨{ cl with tasks := new ++ ts, out := cl.out ++ List.range' c.hs.length 0 },
      List.getElem?_set_self slen, ?_⟩⟩
    rcases hs with ⟨h1, h2, h3, h4⟩ | ⟨r, es, h1, h2, h3, h4, h5⟩
    · have hl : loose cl.pc := h1.resolve_left (by rw [ht]; simp)
      refine .inl ⟨.inr hl, k.stable B.heap (B.calls i cl hcl).1 hl ev.evo h2, ?_, ?_⟩
      · simp [Conf.after, h3]
      · simp [h4]
    · refine .inr ⟨r, es, h1, ?_, ?_, tgtStable h4 h5, fun d g b hd => Nat.lt_of_lt_of_le (h5 d g b hd) ev.evo.evo.next⟩
      · simp [Conf.after, h2]
      · simp [h3]
  | pc cl2 a' n hi ht e1 =>
    rw [hcl] at hi; cases hi
    have ps := PStep.of e1
    have pT := Conf.T_perm hcl
    have hR : HInv c.a.b (pcT cl.pc ++ c.rest i) := B.heap.perm (by simpa [callT, ht] using pT)
    have hcalm : calm cl.pc := by
      rcases hs with ⟨_, h2, _⟩ | ⟨r, es, h1, _⟩
      · exact k.calm h2
      · rw [h1]; trivial
    refine ⟨s.keep.trans (keep_pc hR ps hcalm), nx, lb, others,
      ⟨{ cl with pc := n.pc, tasks := n.tasks, out := cl.out ++ List.range' c.hs.length n.push.length }, List.getElem?_set_self slen, ?_⟩⟩
    rcases hs with ⟨h1, h2, h3, h4⟩ | ⟨r, es, h1, h2, h3, h4, h5⟩
    · rcases k.step B.heap (B.calls i cl hcl).1 h2 ps ev.evo with ⟨h5, h6⟩ | ⟨r, h5, h6⟩
      · refine .inl ⟨k.loose h2 ps, h5, ?_, ?_⟩
        · simp [Conf.after, h3, h6]
        · simp [h4, h6]
      · refine .inr ⟨r, n.push, h5, ?_, ?_, h6, fun d g b hd => ?_⟩
        · simp [Conf.after, h3]
        · simp [h4, h3]
        · obtain ⟨m, hm⟩ := List.mem_iff_getElem?.1 hd
          have : (c.after i a' { cl with pc := n.pc, tasks := n.tasks } n.push).get (c.hs.length + m) = some ⟨.strong d g, b⟩ := by
            simp [Conf.get, Conf.after, List.getElem?_append_right, hm]
          exact B'.heap.lt (ref_mem_aS (Conf.get_tok' this (t := .ref d) (by simp [entT])))
    · rw [h1] at ps
      cases ps
      refine .inr ⟨r, es, rfl, ?_, ?_, h4, h5⟩
      · simp [Conf.after, h2]
      · simp [h3]

/-- Left alone, the call returns what it is meant to return. -/
theorem SI.run (hP : Tame P) (h : Conf.Reach P zst c) (s : SI h0 hs0 i k c) :
    ∃ n c' cl r es, steps c i n = .ok c' ∧ c'.Quiet ∧ Conf.Reach P zst c' ∧ Keep h0 c'.a.b ∧ h0.sk.next ≤ c'.a.b.sk.next ∧
      (∀ x, x < h0.sk.next → c'.a.b.sk.lab x = h0.sk.lab x) ∧ c'.hs = hs0 ++ es.map some ∧ c'.calls[i]? = some cl ∧ cl.tasks = [] ∧
      cl.pc = .done r ∧ cl.out = List.range' hs0.length es.length ∧ k.res c'.a r es := by
  obtain ⟨n, c', e, hq⟩ := alone_returns hP h s.others
  refine ⟨n, c', ?_⟩
  have key : ∀ (n : Nat) {c : Conf α}, Conf.Reach P zst c → SI h0 hs0 i k c → steps c i n = .ok c' → Conf.Reach P zst c' ∧ SI h0 hs0 i k c' := by
    intro n
    induction n with
    | zero => intro c h s e; cases e; exact ⟨h, s⟩
    | succ n ih =>
      intro c h s e
      obtain ⟨c1, e1, e2⟩ := bind_ok e
      exact ih (.run h i e1) (s.step hP h e1) e2
  obtain ⟨hr, s'⟩ := key n h s e
  obtain ⟨cl, hcl, hs⟩ := s'.cl
  obtain ⟨r, h1, h2⟩ := fin_pc (hq cl (List.mem_of_getElem? hcl))
  rcases hs with ⟨_, h3, _⟩ | ⟨r', es, h3, h4, h5, h6, _⟩
  · rw [h1] at h3; exact absurd h3 k.not_done
  · exact ⟨cl, r', es, e, hq, hr, s'.keep, s'.next, s'.lab, h4, hcl, h2, h3, h5, h6⟩

end
end Verif.Arc
