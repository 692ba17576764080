import Verif.Arc.Proofs.SeqRel
/-!
# Each call of a single thread does what the specification says
-/

namespace Verif.Arc
open Verif.Spec (Side Slot Family Rng End Hand World Obs)
open Verif.Rc
variable {α : Type}

/-! ## The remaining calls -/

section
variable {P : Rules α} [Solo P] {zst : Bool} {c c1 : Conf α} {m d g : Nat} {r : Reg}

theorem getMut_ret (h : Conf.Reach P zst c) (hq : c.Quiet) (hm : c.get m = some ⟨.strong d g, false⟩) :
    ∃ (ok : Bool) (c' : Conf α), (ok = true ↔ c.a.gW g = 1 ∧ Lone c.a d g) ∧
      Ret c (.getMut m) (if ok then .handle else .none) [c.hs.length] c' ∧
      After P zst c.a.b (c.hs.set m none) [⟨.strong d g, ok⟩] c' := by
  classical
  refine ⟨decide (c.a.gW g = 1 ∧ Lone c.a d g), ?_⟩
  obtain ⟨c', r, es, h1, h2, rfl, rfl⟩ := ret_of (op := .getMut m) (n0 := 0) h hq
    (by simp only [Conf.start, hm, quiet_borrowed hq]; rfl) rfl
    (SI.start (k := .getm d g (decide (c.a.gW g = 1 ∧ Lone c.a d g))) (c1 := c.taking (.getMut m) m (.gm0 d g)) hq rfl rfl rfl
      (.inl ⟨rfl, rfl, rfl, fun v hv => C41_gates_open h hq hv, by simp⟩))
  refine ⟨c', by simp, ?_, h2⟩
  have : (c.taking (.getMut m) m (.gm0 d g)).hs.length = c.hs.length := by simp [Conf.taking]
  rw [this] at h1; exact h1

/-- The weak count is 1 unless there is a `WeakSlice` to this very slice. -/
theorem weak_one (h : Conf.Reach P zst c) (hq : c.Quiet) (hm : c.get m = some ⟨.strong d g, false⟩)
    (hnw : ∀ m g b, c.get m ≠ some ⟨.weak (some d) g, b⟩) : c.a.gW g = 1 := by
  have B := h.BI Solo.tame
  have F := h.GFI Solo.tame
  obtain ⟨v, hv⟩ := guard_of_strong B hm
  obtain ⟨hg, hd⟩ : ofG c.a d g := F.ents m _ hm
  have h1 := B.gi.weak g
  have h2 : (aWk c.T).count g = 0 := by
    rw [List.count_eq_zero]
    intro h3
    obtain ⟨t, h4, h5⟩ := List.mem_flatMap.1 h3
    obtain ⟨m', ⟨hh, b⟩, h6, h7⟩ := quiet_tok hq h4
    cases hh with
    | weak d' g' =>
      have h8 : g' = some g := by
        cases g' with
        | none => simp [entT] at h7
        | some x =>
          simp only [entT, Option.toList_some, List.map_cons, List.map_nil, List.mem_cons, List.not_mem_nil, or_false] at h7
          subst h7; simp [AT.wks] at h5; rw [h5]
      obtain ⟨y, h9, _, h10⟩ := F.ents m' _ h6 g h8
      rw [hd] at h10
      subst h9 h10
      exact hnw _ _ _ h6
    | strong d' g' =>
      simp only [entT, List.mem_cons, List.not_mem_nil, or_false] at h7
      rcases h7 with rfl | rfl <;> simp [AT.wks] at h5
    | uniq r' =>
      simp only [entT, List.mem_cons, List.not_mem_nil, or_false] at h7
      subst h7; simp [AT.wks] at h5
  rw [h1, h2, if_pos hg]

theorem intoMut_no (h : Conf.Reach P zst c) (hq : c.Quiet) (hm : c.get m = some ⟨.strong d g, false⟩) (hl : ¬ Lone c.a d g) :
    ∃ c', Ret c (.intoMut m) .err [c.hs.length] c' ∧ After P zst c.a.b (c.hs.set m none) [⟨.strong d g, false⟩] c' := by
  obtain ⟨c', r, es, h1, h2, rfl, rfl⟩ := ret_of (op := .intoMut m) (n0 := 0) h hq
    (by simp only [Conf.start, hm, quiet_borrowed hq]; rfl) rfl
    (SI.start (k := .refuse d g) (c1 := c.taking (.intoMut m) m (.im0 d g)) hq rfl rfl rfl (.inl ⟨rfl, rfl, rfl, hl⟩))
  refine ⟨c', ?_, h2⟩
  have : (c.taking (.intoMut m) m (.im0 d g)).hs.length = c.hs.length := by simp [Conf.taking]
  rw [this] at h1; exact h1

theorem intoMut_yes (h : Conf.Reach P zst c) (hq : c.Quiet) (hm : c.get m = some ⟨.strong d g, false⟩) (hl : Lone c.a d g)
    {v : DataV} (hd : c.a.b.sk.node d = some (.data v)) :
    ∃ c', Ret c (.intoMut m) .handle [c.hs.length] c' ∧
      After P zst c.a.b (c.hs.set m none) [⟨.uniq ⟨v.buf, v.off, v.len, v.alloc⟩, false⟩] c' := by
  obtain ⟨c', r, es, h1, h2, rfl, rfl⟩ := ret_of (op := .intoMut m) (n0 := 0) h hq
    (by simp only [Conf.start, hm, quiet_borrowed hq]; rfl) rfl
    (SI.start (k := .take ⟨v.buf, v.off, v.len, v.alloc⟩) (c1 := c.taking (.intoMut m) m (.im0 d g)) hq rfl rfl rfl
      (.inl ⟨rfl, fun v hv => (C41_gates_open h hq hv).1, hl, fun v' hv' => by rw [hd] at hv'; cases hv'; rfl⟩))
  refine ⟨c', ?_, h2⟩
  have : (c.taking (.intoMut m) m (.im0 d g)).hs.length = c.hs.length := by simp [Conf.taking]
  rw [this] at h1; exact h1

theorem root_grow (a : Arena α) (r : Reg) : Grow a.b.sk (a.root r).1.b.sk :=
  (Grow.famAdd a.b.sk ⟨r.buf, ⟨r.off, r.len⟩, r.alloc.isSome⟩).trans (Grow.add _ _ _)

theorem root_core {umax : Nat} {a : Arena α} {w : World α} (C : Core umax a.b w) {r : Reg} (hin : RngIn a.b.sk r.buf ⟨r.off, r.len⟩) :
    Core umax (a.root r).1.b (w.newFam ⟨r.buf, ⟨r.off, r.len⟩, r.alloc.isSome⟩) :=
  C.newFam (root_grow a r) rfl rfl (upd_same _ a.b.sk.nfam _) hin rfl rfl

theorem root_lab (a : Arena α) (r : Reg) : (a.root r).1.b.sk.lab (a.root r).2 = ⟨a.b.sk.nfam, []⟩ := upd_same _ a.b.sk.next _

theorem intoImmut_ret (h : Conf.Reach P zst c) (hq : c.Quiet) (hm : c.get m = some ⟨.uniq r, false⟩) :
    ∃ c' d' g', Ret c (.intoImmut m) .handle [c.hs.length] c' ∧
      After P zst (c.a.root r).1.b (c.hs.set m none) [⟨.strong d' g', false⟩] c' ∧ c'.a.b.sk.lab d' = ⟨c.a.b.sk.nfam, []⟩ := by
  have e : c.start (.intoImmut m) = some (c.taking (.intoImmut m) m (.immut r)) := by
    simp only [Conf.start, hm, quiet_borrowed hq]; rfl
  obtain ⟨c2, e2, s2⟩ := SI.first (k := .share ⟨c.a.b.sk.nfam, []⟩) (c1 := c.taking (.intoImmut m) m (.immut r)) hq rfl rfl rfl rfl
    (.inl ⟨.inl rfl, root_lab c.a r, rfl⟩)
  obtain ⟨c', r', es, h1, h2, rfl, d', g', rfl, h3⟩ := ret_of h (op := .intoImmut m) hq e e2 s2
  refine ⟨c', d', g', ?_, h2, h3⟩
  have : (c.taking (.intoImmut m) m (.immut r)).hs.length = c.hs.length := by simp [Conf.taking]
  rw [this] at h1; exact h1

theorem mutNew_ret (h : Conf.Reach P zst c) (hq : c.Quiet) (xs : List α) :
    ∃ c', Ret c (.mutNew xs) .handle [c.hs.length] c' ∧
      After P zst (mutFromBox c.a.b xs).1 c.hs [⟨.uniq (mutFromBox c.a.b xs).2, false⟩] c' := by
  obtain ⟨c2, e2, s2⟩ := SI.first (k := .exact .handle [⟨.uniq (mutFromBox c.a.b xs).2, false⟩]) (c1 := c.plain (.mutNew xs) (.mutNew xs))
    hq rfl rfl rfl rfl (.inr ⟨_, rfl, ⟨rfl, rfl⟩, by simp⟩)
  obtain ⟨c', r', es, h1, h2, rfl, rfl⟩ := ret_of h (op := .mutNew xs) hq rfl e2 s2
  exact ⟨c', h1, h2⟩

/-- The heap in which `ArcSlice::new` has made its data. -/
def newHeap (a : Arena α) (xs : List α) : Arena α × Nat :=
  if xs.length = 0 then (a.withB (newBuf a.b xs).1).root ⟨a.b.sk.nbuf, 0, 0, none⟩
  else (a.withB ((newBuf a.b xs).1.rcNew (.alloc a.b.sk.nbuf) ⟨0, []⟩).1).root ⟨a.b.sk.nbuf, 0, xs.length, some a.b.sk.next⟩

theorem newHeap_lab (a : Arena α) (xs : List α) : (newHeap a xs).1.b.sk.lab (newHeap a xs).2 = ⟨a.b.sk.nfam, []⟩ := by
  simp only [newHeap]; split <;> exact root_lab _ _

theorem new_ret (h : Conf.Reach P zst c) (hq : c.Quiet) (xs : List α) :
    ∃ c' d' g', Ret c (.new xs) .handle [c.hs.length] c' ∧ After P zst (newHeap c.a xs).1.b c.hs [⟨.strong d' g', false⟩] c' ∧
      c'.a.b.sk.lab d' = ⟨c.a.b.sk.nfam, []⟩ := by
  have e : pcStep c.a (.new xs) = .ok ((newHeap c.a xs).1, { pc := .gLoad (newHeap c.a xs).2 [] (newHeap c.a xs).2 }) := by
    simp only [pcStep, newHeap]; split <;> rfl
  obtain ⟨c2, e2, s2⟩ := SI.first (k := .share ⟨c.a.b.sk.nfam, []⟩) (c1 := c.plain (.new xs) (.new xs)) hq rfl rfl rfl e
    (.inl ⟨.inl rfl, newHeap_lab c.a xs, rfl⟩)
  obtain ⟨c', r', es, h1, h2, rfl, d', g', rfl, h3⟩ := ret_of h (op := .new xs) hq rfl e2 s2
  exact ⟨c', d', g', h1, h2, h3⟩

theorem split_ret (h : Conf.Reach P zst c) (hq : c.Quiet) (hm : c.get m = some ⟨.uniq r, false⟩) (s : Side) :
    ∃ c' h0 r1 r2, Ret c (.splitOff s m) .handle [c.hs.length, c.hs.length + 1] c' ∧ regSplitOff c.a.b r s = .ok (h0, r1, r2) ∧
      After P zst h0 (c.hs.set m none) [⟨.uniq r1, false⟩, ⟨.uniq r2, false⟩] c' := by
  have e : c.start (.splitOff s m) = some (c.taking (.splitOff s m) m (.split s r)) := by
    simp only [Conf.start, hm, quiet_borrowed hq]; rfl
  obtain ⟨a', n, e1⟩ := first_ok (c := c) (.start h (.splitOff s m) (Solo.quiet _ _ hq) e) rfl rfl
  have e1' : pcStep c.a (.split s r) = .ok (a', n) := e1
  obtain ⟨⟨h0, r1, r2⟩, e3, e4⟩ := bind_ok e1'
  cases pure_ok e4
  obtain ⟨c2, e2, s2⟩ := SI.first (k := .exact .handle [⟨.uniq r1, false⟩, ⟨.uniq r2, false⟩])
    (c1 := c.taking (.splitOff s m) m (.split s r)) hq rfl rfl rfl e1 (.inr ⟨_, rfl, ⟨rfl, rfl⟩, by simp⟩)
  obtain ⟨c', r', es, h1, h2, rfl, rfl⟩ := ret_of h (op := .splitOff s m) hq e e2 s2
  refine ⟨c', h0, r1, r2, ?_, e3, h2⟩
  have : (c.taking (.splitOff s m) m (.split s r)).hs.length = c.hs.length := by simp [Conf.taking]
  rw [this] at h1; exact h1

/-- What `next` returns. -/
def resOf : Option α → Res α
  | some x => .item x
  | none => .none

theorem next_ret (h : Conf.Reach P zst c) (hq : c.Quiet) (hm : c.get m = some ⟨.uniq r, false⟩) (en : End) :
    ∃ c' h0 o r' ts, Ret c (.next en m) (resOf o) [c.hs.length] c' ∧
      iterNext c.a.b r en = .ok (h0, o, r', ts) ∧ After P zst h0 (c.hs.set m none) [⟨.uniq r', false⟩] c' := by
  have e : c.start (.next en m) = some (c.taking (.next en m) m (.nxt en r)) := by
    simp only [Conf.start, hm, quiet_borrowed hq]; rfl
  obtain ⟨a', n, e1⟩ := first_ok (c := c) (.start h (.next en m) (Solo.quiet _ _ hq) e) rfl rfl
  have e1' : pcStep c.a (.nxt en r) = .ok (a', n) := e1
  obtain ⟨⟨h0, o, r', ts⟩, e3, e4⟩ := bind_ok e1'
  cases pure_ok e4
  obtain ⟨c2, e2, s2⟩ := SI.first (k := .exact (resOf o) [⟨.uniq r', false⟩])
    (c1 := c.taking (.next en m) m (.nxt en r)) hq rfl rfl rfl e1 (.inr ⟨_, rfl, ⟨by cases o <;> rfl, rfl⟩, by simp⟩)
  obtain ⟨c', re, es, h1, h2, rfl, rfl⟩ := ret_of h (op := .next en m) hq e e2 s2
  refine ⟨c', h0, o, r', ts, ?_, e3, h2⟩
  have : (c.taking (.next en m) m (.nxt en r)).hs.length = c.hs.length := by simp [Conf.taking]
  rw [this] at h1; exact h1

theorem incSOpt_slot {h h' : Heap α} {o : Option Nat} (e : h.incSOpt o = .ok h') : h'.slot = h.slot := by
  cases o with
  | none => cases e; rfl
  | some x => obtain ⟨_, rfl⟩ := incS_some e; rfl

theorem iterSplit_eq {h h0 : Heap α} {new rest r1 r2 : Reg} (e : iterSplit h new rest = .ok (h0, r1, r2)) :
    h0.sk = h.sk ∧ h0.slot = h.slot ∧ r1 = { new with alloc := r1.alloc } ∧ r2 = { rest with alloc := r2.alloc } ∧
      (r1.alloc.isSome, r2.alloc.isSome) = World.splitHolds rest.alloc.isSome new.len rest.len := by
  obtain ⟨⟨h1, a, b⟩, e1, e2⟩ := bind_ok e
  have e2 := pure_ok e2
  simp only [Prod.mk.injEq] at e2
  obtain ⟨rfl, rfl, rfl⟩ := e2
  simp only [splitAlloc] at e1
  split at e1
  · next h => cases e1; simp [World.splitHolds, h]
  · next h =>
    split at e1
    · next h' =>
      obtain ⟨h3, e3, e4⟩ := bind_ok e1
      have e4 := pure_ok e4
      simp only [Prod.mk.injEq] at e4
      obtain ⟨rfl, rfl, rfl⟩ := e4
      refine ⟨incSOpt_sk e3, incSOpt_slot e3, rfl, rfl, ?_⟩
      simp only [World.splitHolds]; rw [if_neg h, if_neg (by omega)]
    · next h' =>
      cases e1
      refine ⟨rfl, rfl, rfl, rfl, ?_⟩
      simp only [World.splitHolds]; rw [if_neg h, if_pos (by omega)]; rfl

/-- The first items are cut off. -/
theorem cutF_ret (h : Conf.Reach P zst c) (hq : c.Quiet) (hm : c.get m = some ⟨.uniq r, false⟩) {n : Nat} (hn : n ≤ r.len) :
    ∃ c' h0 a1 a2, Ret c (.cut .front n m) .handle [c.hs.length, c.hs.length + 1] c' ∧ h0.sk = c.a.b.sk ∧ h0.slot = c.a.b.slot ∧
      (a1.isSome, a2.isSome) = World.splitHolds r.alloc.isSome n (r.len - n) ∧
      After P zst h0 (c.hs.set m none) [⟨.uniq ⟨r.buf, r.off, n, a1⟩, false⟩, ⟨.uniq ⟨r.buf, r.off + n, r.len - n, a2⟩, false⟩] c' := by
  have e : c.start (.cut .front n m) = some (c.taking (.cut .front n m) m (.cut .front n r)) := by
    simp only [Conf.start, hm, quiet_borrowed hq]; rfl
  obtain ⟨a', nx, e1⟩ := first_ok (c := c) (.start h (.cut .front n m) (Solo.quiet _ _ hq) e) rfl rfl
  have e1' : pcStep c.a (.cut .front n r) = .ok (a', nx) := e1
  simp only [pcStep] at e1'
  rw [if_pos hn] at e1'
  obtain ⟨⟨h0, r1, r2⟩, e3, e4⟩ := bind_ok e1'
  cases pure_ok e4
  obtain ⟨ek, es, g1, g2, g3⟩ := iterSplit_eq e3
  obtain ⟨c2, e2, s2⟩ := SI.first (k := .exact .handle [⟨.uniq r1, false⟩, ⟨.uniq r2, false⟩])
    (c1 := c.taking (.cut .front n m) m (.cut .front n r)) hq rfl rfl rfl e1 (.inr ⟨_, rfl, ⟨rfl, rfl⟩, by simp⟩)
  obtain ⟨c', r', es', h1, h2, rfl, rfl⟩ := ret_of h (op := .cut .front n m) hq e e2 s2
  refine ⟨c', h0, r1.alloc, r2.alloc, ?_, ek, es, g3, ?_⟩
  · have : (c.taking (.cut .front n m) m (.cut .front n r)).hs.length = c.hs.length := by simp [Conf.taking]
    rw [this] at h1; exact h1
  · rw [g1, g2] at h2; exact h2

/-- The last items are cut off. -/
theorem cutB_ret (h : Conf.Reach P zst c) (hq : c.Quiet) (hm : c.get m = some ⟨.uniq r, false⟩) {n : Nat} (hn : n ≤ r.len) :
    ∃ c' h0 a1 a2, Ret c (.cut .back n m) .handle [c.hs.length, c.hs.length + 1] c' ∧ h0.sk = c.a.b.sk ∧ h0.slot = c.a.b.slot ∧
      (a1.isSome, a2.isSome) = World.splitHolds r.alloc.isSome (r.len - n) n ∧
      After P zst h0 (c.hs.set m none) [⟨.uniq ⟨r.buf, r.off + n, r.len - n, a1⟩, false⟩, ⟨.uniq ⟨r.buf, r.off, n, a2⟩, false⟩] c' := by
  have e : c.start (.cut .back n m) = some (c.taking (.cut .back n m) m (.cut .back n r)) := by
    simp only [Conf.start, hm, quiet_borrowed hq]; rfl
  obtain ⟨a', nx, e1⟩ := first_ok (c := c) (.start h (.cut .back n m) (Solo.quiet _ _ hq) e) rfl rfl
  have e1' : pcStep c.a (.cut .back n r) = .ok (a', nx) := e1
  simp only [pcStep] at e1'
  rw [if_pos hn] at e1'
  obtain ⟨⟨h0, r1, r2⟩, e3, e4⟩ := bind_ok e1'
  cases pure_ok e4
  obtain ⟨ek, es, g1, g2, g3⟩ := iterSplit_eq e3
  obtain ⟨c2, e2, s2⟩ := SI.first (k := .exact .handle [⟨.uniq r1, false⟩, ⟨.uniq r2, false⟩])
    (c1 := c.taking (.cut .back n m) m (.cut .back n r)) hq rfl rfl rfl e1 (.inr ⟨_, rfl, ⟨rfl, rfl⟩, by simp⟩)
  obtain ⟨c', r', es', h1, h2, rfl, rfl⟩ := ret_of h (op := .cut .back n m) hq e e2 s2
  refine ⟨c', h0, r1.alloc, r2.alloc, ?_, ek, es, g3, ?_⟩
  · have : (c.taking (.cut .back n m) m (.cut .back n r)).hs.length = c.hs.length := by simp [Conf.taking]
    rw [this] at h1; exact h1
  · rw [g1, g2] at h2; exact h2

/-- There are not that many items. -/
theorem cut_no (h : Conf.Reach P zst c) (hq : c.Quiet) (hm : c.get m = some ⟨.uniq r, false⟩) (en : End) {n : Nat}
    (hn : ¬ n ≤ r.len) :
    ∃ c', Ret c (.cut en n m) .panic [c.hs.length] c' ∧ After P zst c.a.b (c.hs.set m none) [⟨.uniq r, false⟩] c' := by
  have e : c.start (.cut en n m) = some (c.taking (.cut en n m) m (.cut en n r)) := by
    simp only [Conf.start, hm, quiet_borrowed hq]; rfl
  have e1 : pcStep c.a (.cut en n r) = .ok (c.a, { pc := .done .panic, push := [⟨.uniq r, false⟩] }) := by
    simp only [pcStep]; rw [if_neg hn]
  obtain ⟨c2, e2, s2⟩ := SI.first (k := .exact .panic [⟨.uniq r, false⟩])
    (c1 := c.taking (.cut en n m) m (.cut en n r)) hq rfl rfl rfl e1 (.inr ⟨_, rfl, ⟨rfl, rfl⟩, by simp⟩)
  obtain ⟨c', r', es', h1, h2, rfl, rfl⟩ := ret_of h (op := .cut en n m) hq e e2 s2
  refine ⟨c', ?_, h2⟩
  have : (c.taking (.cut en n m) m (.cut en n r)).hs.length = c.hs.length := by simp [Conf.taking]
  rw [this] at h1; exact h1

end

/-! ## Simulation -/

/-- `World.act`, but `weakNew` does not use up the number of a family. -/
def act0 (umax : Nat) (w : World α) : Spec.Op α → World α × Obs α
  | .weakNew => (w.push .weakNone, .handle)
  | op => w.act umax op

def call0 (umax : Nat) (w : World α) (op : Spec.Op α) : World α × Obs α :=
  ((act0 umax w op).1.settle, (act0 umax w op).2)

def run0 (umax : Nat) : World α → List (Spec.Op α) → World α × List (Obs α)
  | w, [] => (w, [])
  | w, op :: ops => ((run0 umax (call0 umax w op).1 ops).1, (call0 umax w op).2 :: (run0 umax (call0 umax w op).1 ops).2)

/-- The program does what the specification says. -/
def Sim (P : Rules α) (umax : Nat) (zst : Bool) (s : Seq α) (w : World α) (op : Spec.Op α) : Prop :=
  ∃ s', Seq.Does umax s op (call0 umax w op).2 s' ∧ SR P umax zst s' (call0 umax w op).1

section
variable {P : Rules α} [Solo P] {umax : Nat} {zst : Bool} {s s' : Seq α} {w w' : World α} {op : Spec.Op α} {o : Obs α} {c' : Conf α}

omit [Solo P] in
theorem Sim.of0 (ha : act0 umax w op = (w', o)) (hd : Seq.Does umax s op o s') (hr : SR P umax zst s' w'.settle) : Sim P umax zst s w op := by
  refine ⟨s', ?_, ?_⟩ <;> simp only [call0, ha]
  · exact hd
  · exact hr

omit [Solo P] in
theorem Sim.of (ha : w.act umax op = (w', o)) (hd : Seq.Does umax s op o s') (hr : SR P umax zst s' w'.settle)
    (h0 : act0 umax w op = w.act umax op := by rfl) : Sim P umax zst s w op := .of0 (h0.trans ha) hd hr

theorem Sim.noop (R : SR P umax zst s w) (ha : w.act umax op = (w, o)) (hd : Seq.Does umax s op o s)
    (h0 : act0 umax w op = w.act umax op := by rfl) : Sim P umax zst s w op :=
  .of ha hd (by rw [R.settled]; exact R) h0

variable {h0 : Heap α} {e : Ent} {y : Hand} {k m : Nat} {it it0 : Kind}

/-- One more handle. -/
theorem SR.pushed (R : SR P umax zst s w) (g : Grow s.c.a.b.sk h0.sk) (A : After P zst h0 s.c.hs [e] c') (C : Core umax h0 w')
    (hz : ∀ b, h0.sk.mem b = true → h0.sk.zst = false) (eh : w'.hs = w.hs) (hr : ER umax c'.a.b.sk e .plain y) (hb : e.mutb = false) :
    SR P umax zst ((s.to c').push s.c.hs.length) (w'.push y).settle := by
  have hg : c'.get = upd s.c.get s.c.hs.length (some e) := get_push A.hs
  refine ⟨SR0.finish A (C.hs rfl) hz ?_, fun m e' h => ?_⟩
  · show TabR umax c'.get _ _ (w'.hs ++ [some y])
    rw [hg, eh]
    exact (R.grown g A).push (get_len _) hr
  · have h : c'.get m = some e' := h
    rw [hg] at h
    simp only [upd] at h
    split at h
    · cases h; exact hb
    · exact R.nomut m e' h

/-- A handle is replaced. -/
theorem SR0.replaced (R : SR0 P umax zst s w) (g : Grow s.c.a.b.sk h0.sk) (A : After P zst h0 (s.c.hs.set m none) [e] c') (C : Core umax h0 w')
    (hz : ∀ b, h0.sk.mem b = true → h0.sk.zst = false) (eh : w'.hs = w.hs) (hk : s.tab[k]?.join = some (m, it0))
    (hr : ER umax c'.a.b.sk e it y) :
    SR0 P umax zst ((s.to c').put k s.c.hs.length it) (w'.put k y).settle ∧
      c'.get = upd (upd s.c.get m none) s.c.hs.length (some e) := by
  have hg : c'.get = upd (upd s.c.get m none) s.c.hs.length (some e) := by
    have := get_push A.hs
    rw [get_set, List.length_set] at this; exact this
  refine ⟨SR0.finish A (C.hs rfl) hz ?_, hg⟩
  show TabR umax c'.get _ _ (w'.hs.set k (some y))
  rw [hg, eh]
  refine (R.grown g A).put hk ?_ hr
  simp only [upd]
  split
  · rfl
  · exact get_len _

theorem SR.replaced (R : SR P umax zst s w) (g : Grow s.c.a.b.sk h0.sk) (A : After P zst h0 (s.c.hs.set m none) [e] c') (C : Core umax h0 w')
    (hz : ∀ b, h0.sk.mem b = true → h0.sk.zst = false) (eh : w'.hs = w.hs) (hk : s.tab[k]?.join = some (m, it0))
    (hr : ER umax c'.a.b.sk e it y) (hb : e.mutb = false) :
    SR P umax zst ((s.to c').put k s.c.hs.length it) (w'.put k y).settle := by
  obtain ⟨h1, hg⟩ := R.toSR0.replaced g A C hz eh hk hr
  refine ⟨h1, fun m' e' h => ?_⟩
  have h : c'.get m' = some e' := h
  rw [hg] at h
  simp only [upd] at h
  split at h
  · cases h; exact hb
  · split at h
    · cases h
    · exact R.nomut m' e' h

/-- A handle goes. -/
theorem SR.gone (R : SR P umax zst s w) (A : After P zst s.c.a.b (s.c.hs.set m none) [] c') (hk : s.tab[k]?.join = some (m, it0)) :
    SR P umax zst ((s.to c').del k) (w.del k).settle := by
  have hg : c'.get = upd s.c.get m none := by
    have h1 := get_set (hs := s.c.hs) (m0 := m)
    have h2 : c'.hs = s.c.hs.set m none := by simpa using A.hs
    rw [← h2] at h1; exact h1
  refine ⟨SR0.finish A (R.core.hs rfl) R.memz ?_, fun m' e' h => ?_⟩
  · show TabR umax c'.get _ _ _
    rw [hg]; exact (R.grown (.refl _) A).del hk
  · have h : c'.get m' = some e' := h
    rw [hg] at h
    simp only [upd] at h
    split at h
    · cases h
    · exact R.nomut m' e' h

theorem memz_buf {h : Heap α} {xs : List α} {h' : Heap α} (hz : ∀ b, h.sk.mem b = true → h.sk.zst = false) (e1 : h'.sk.zst = h.sk.zst)
    (e2 : h'.sk.mem = upd h.sk.mem h.sk.nbuf (!h.sk.zst && !xs.isEmpty)) (b : Nat) (hb : h'.sk.mem b = true) : h'.sk.zst = false := by
  rw [e2] at hb
  rw [e1]
  simp only [upd] at hb
  split at hb
  · simp at hb; exact hb.1
  · exact hz b hb

/-! ### Making handles -/

/-- A new unique slice. -/
theorem mutNew_sim (R : SR P umax zst s w) {xs : List α} (hl : xs.length ≤ umax) {n : Nat} (hn : n = xs.length) :
    ∃ c', Ret s.c (.mutNew xs) .handle [s.c.hs.length] c' ∧
      SR P umax zst ((s.to c').push s.c.hs.length) ((w.newBuf xs).push (.uniq w.nbuf ⟨0, n⟩ (!w.zst && !xs.isEmpty))).settle := by
  subst hn
  obtain ⟨c', h1, A⟩ := mutNew_ret R.reach R.quiet xs
  refine ⟨c', h1, ?_⟩
  by_cases hz : xs.length = 0 ∨ s.c.a.b.sk.zst = true
  · have e : mutFromBox s.c.a.b xs = ((newBuf s.c.a.b xs).1, ⟨s.c.a.b.sk.nbuf, 0, xs.length, none⟩) := by
      simp only [mutFromBox]; exact if_pos hz
    rw [e] at A
    have g : Grow s.c.a.b.sk (newBuf s.c.a.b xs).1.sk := Grow.bufAdd _ _ _
    refine R.pushed g A (R.core.newBuf g hl rfl rfl rfl rfl (upd_same _ _ _)) (memz_buf R.memz rfl rfl) rfl ?_ rfl
    have hh : (!w.zst && !xs.isEmpty) = false := by
      rcases hz with hz | hz
      · rw [List.length_eq_zero_iff] at hz; subst hz; simp
      · simp [R.core.zst, hz]
    rw [hh, R.core.nbuf]
    refine .uniq ⟨s.c.a.b.sk.nbuf, 0, xs.length, none⟩ false (A.keep.rngIn (.inl ⟨Nat.lt_succ_self _, ?_⟩))
    show 0 + xs.length ≤ upd _ _ _ _
    rw [upd_same]; omega
  · have h1 : xs.length ≠ 0 := fun h => hz (.inl h)
    have h2 : ¬ s.c.a.b.sk.zst = true := fun h => hz (.inr h)
    have e : mutFromBox s.c.a.b xs = (((newBuf s.c.a.b xs).1.rcNew (.alloc s.c.a.b.sk.nbuf) ⟨0, []⟩).1,
        ⟨s.c.a.b.sk.nbuf, 0, xs.length, some s.c.a.b.sk.next⟩) := by
      simp only [mutFromBox]; exact if_neg hz
    rw [e] at A
    have g : Grow s.c.a.b.sk ((newBuf s.c.a.b xs).1.rcNew (.alloc s.c.a.b.sk.nbuf) ⟨0, []⟩).1.sk :=
      (Grow.bufAdd _ _ _).trans (Grow.add _ _ _)
    refine R.pushed g A (R.core.newBuf g hl rfl rfl rfl rfl (upd_same _ _ _)) (memz_buf R.memz rfl rfl) rfl ?_ rfl
    have hh : (!w.zst && !xs.isEmpty) = true := by
      rw [R.core.zst]
      have : xs.isEmpty = false := by cases xs <;> simp_all
      simp [this, h2]
    rw [hh, R.core.nbuf]
    refine .uniq ⟨s.c.a.b.sk.nbuf, 0, xs.length, some s.c.a.b.sk.next⟩ false (A.keep.rngIn (.inl ⟨Nat.lt_succ_self _, ?_⟩))
    show 0 + xs.length ≤ upd _ _ _ _
    rw [upd_same]; omega

theorem sim_mutNew (R : SR P umax zst s w) (xs : List α) : Sim P umax zst s w (.mutNew xs) := by
  by_cases hl : xs.length ≤ umax
  · obtain ⟨c', h1, h2⟩ := mutNew_sim R hl rfl
    exact .of (by simp only [World.act]; rw [if_pos hl]) (.mutNew hl h1) h2
  · exact .noop R (by simp only [World.act]; rw [if_neg hl]) (.invalid (by simp [Seq.takes, hl]))

theorem sim_rcNew (R : SR P umax zst s w) (xs : List α) : Sim P umax zst s w (.rcNew xs) := by
  by_cases hl : xs.length ≤ umax
  · obtain ⟨c', d', g', h1, A, h3⟩ := new_ret R.reach R.quiet xs
    refine .of (w' := ((w.newBuf xs).newFam ⟨w.nbuf, ⟨0, xs.length⟩, !xs.isEmpty⟩).push (.shared w.fams.length []))
      (by simp only [World.act]; rw [if_pos hl]) (.rcNew hl h1) ?_
    have hr : ER umax c'.a.b.sk ⟨.strong d' g', false⟩ .plain (.shared w.fams.length []) := .shared _ _ _ _ _ (by rw [h3, R.core.nfam])
    by_cases hz : xs.length = 0
    · have e : newHeap s.c.a xs = (s.c.a.withB (newBuf s.c.a.b xs).1).root ⟨s.c.a.b.sk.nbuf, 0, 0, none⟩ := by
        simp only [newHeap]; rw [if_pos hz]
      rw [e] at A
      have g : Grow s.c.a.b.sk (newBuf s.c.a.b xs).1.sk := Grow.bufAdd _ _ _
      have C1 : Core umax (s.c.a.withB (newBuf s.c.a.b xs).1).b (w.newBuf xs) := R.core.newBuf g hl rfl rfl rfl rfl (upd_same _ _ _)
      have C2 := root_core C1 (r := ⟨s.c.a.b.sk.nbuf, 0, 0, none⟩) (.inr rfl)
      have ef : (⟨w.nbuf, ⟨0, xs.length⟩, !xs.isEmpty⟩ : Family) = ⟨s.c.a.b.sk.nbuf, ⟨0, 0⟩, (none : Option Nat).isSome⟩ := by
        rw [List.length_eq_zero_iff] at hz; subst hz
        rw [R.core.nbuf]; rfl
      rw [ef]
      exact R.pushed (g.trans (root_grow (s.c.a.withB _) _)) A C2 (memz_buf (xs := xs) R.memz rfl rfl) rfl hr rfl
    · have e : newHeap s.c.a xs = (s.c.a.withB ((newBuf s.c.a.b xs).1.rcNew (.alloc s.c.a.b.sk.nbuf) ⟨0, []⟩).1).root
          ⟨s.c.a.b.sk.nbuf, 0, xs.length, some s.c.a.b.sk.next⟩ := by
        simp only [newHeap]; rw [if_neg hz]
      rw [e] at A
      have g : Grow s.c.a.b.sk ((newBuf s.c.a.b xs).1.rcNew (.alloc s.c.a.b.sk.nbuf) ⟨0, []⟩).1.sk :=
        (Grow.bufAdd _ _ _).trans (Grow.add _ _ _)
      have C1 : Core umax (s.c.a.withB ((newBuf s.c.a.b xs).1.rcNew (.alloc s.c.a.b.sk.nbuf) ⟨0, []⟩).1).b (w.newBuf xs) :=
        R.core.newBuf g hl rfl rfl rfl rfl (upd_same _ _ _)
      have C2 := root_core C1 (r := ⟨s.c.a.b.sk.nbuf, 0, xs.length, some s.c.a.b.sk.next⟩) (.inl ⟨Nat.lt_succ_self _, by
        show 0 + xs.length ≤ upd _ _ _ _
        rw [upd_same]; omega⟩)
      have ef : (⟨w.nbuf, ⟨0, xs.length⟩, !xs.isEmpty⟩ : Family) = ⟨s.c.a.b.sk.nbuf, ⟨0, xs.length⟩, (some s.c.a.b.sk.next).isSome⟩ := by
        have : xs.isEmpty = false := by cases xs <;> simp_all
        rw [R.core.nbuf, this]; rfl
      rw [ef]
      exact R.pushed (g.trans (root_grow (s.c.a.withB _) _)) A C2 (memz_buf (xs := xs) R.memz rfl rfl) rfl hr rfl
  · exact .noop R (by simp only [World.act]; rw [if_neg hl]) (.invalid (by simp [Seq.takes, hl]))

theorem read_reg' (R : SR P umax zst s w) {r : Reg} (hm : s.c.get m = some ⟨.uniq r, false⟩) :
    readRange s.c.a.b r.buf r.off r.len = .ok (w.look r.buf ⟨r.off, r.len⟩) ∧ (w.look r.buf ⟨r.off, r.len⟩).length = r.len := by
  have ht : AT.reg r ∈ s.c.T := Conf.get_tok' hm (by simp [entT])
  have I := (R.reach.BI Solo.tame).heap
  rw [look_eq (s := ⟨s.c.a.b, []⟩) R.core]
  exact readRange_ok (fun h => I.accessible ht h) (fun j h1 h2 => I.reg_live ht h1 h2)

theorem sim_clone (R : SR P umax zst s w) (k : Nat) : Sim P umax zst s w (.clone k) := by
  rcases R.cases k with ⟨h1, h2⟩ | ⟨m, d, g, f, p, h1, h2, h3, h4, h5⟩ | ⟨m, r, h1, h2, h3, h4, h5⟩ | ⟨m, r, h1, h2, h3, h4, h5⟩ |
    ⟨m, r, n, f, c, q, h1, h2, h3, h4, q1, q2, hin, hl, ho⟩ | ⟨m, d, g, f, p, h1, h2, h3, h4, h5⟩ | ⟨m, h1, h2, h3, h4⟩
  · exact .noop R (by simp only [World.act, h2]) (.invalid (by simp [Seq.takes, h1]))
  · obtain ⟨c', d', g', e1, A, e2⟩ := clone_ret R.reach R.quiet h3
    exact .of (by simp only [World.act, h4]) (.clone h1 e1)
      (R.pushed (.refl _) A R.core R.memz rfl (.shared d' g' false f p (by rw [e2, h5])) rfl)
  · obtain ⟨e1, e2⟩ := read_reg' R h3
    have hle := (R.core.rng_le h5).2
    simp only at hle
    obtain ⟨c', e3, e4⟩ := mutNew_sim R (xs := w.look r.buf ⟨r.off, r.len⟩) (by omega) e2.symm
    exact .of (by simp only [World.act, h4]) (.cloneMut h1 e1 e3) e4
  · exact .noop R (by simp only [World.act, h4]) (.invalid (by simp [Seq.takes, h1]))
  · exact .noop R (by simp only [World.act, h4]) (.invalid (by simp [Seq.takes, h1]))
  · obtain ⟨c', e1, A⟩ := cloneWeak_ret R.reach R.quiet h3
    have hd := ((R.reach.BI Solo.tame).ents m _ h3 d rfl).1
    exact .of (by simp only [World.act, h4]) (.cloneWeak h1 e1)
      (R.pushed (.refl _) A R.core R.memz rfl (.weak d g false f p (by rw [A.lab d hd, h5])) rfl)
  · obtain ⟨c', e1, A⟩ := cloneWeak_ret R.reach R.quiet h3
    exact .of (by simp only [World.act, h4]) (.cloneWeak h1 e1) (R.pushed (.refl _) A R.core R.memz rfl (.weakNone false) rfl)

theorem tgt_eq (R : SR P umax zst s w) {d : Nat} {f : Nat} {p : List Side} {g : Nat} {b : Bool} (hm : s.c.get m = some ⟨.strong d g, b⟩)
    (hl : s.c.a.b.sk.lab d = ⟨f, p⟩) (sd : Side) : tgtL s.c.a d sd = ⟨f, w.halfPath f p sd⟩ := by
  have B := R.reach.BI Solo.tame
  obtain ⟨v, hd⟩ := data_of_strong B hm
  obtain ⟨_, h2, _, _⟩ := data_rng B.heap R.core hd hl
  simp only [tgtL, hd, hl]
  cases sd with
  | L =>
    simp only [World.halfPath, h2, sameNode, beq_iff_eq, Lab.child]
    split <;> rfl
  | R =>
    simp only [World.halfPath, h2, sameNode, decide_eq_true_eq, Lab.child]
    split <;> rfl

theorem sim_cloneSide (R : SR P umax zst s w) (sd : Side) (k : Nat) : Sim P umax zst s w (.cloneSide sd k) := by
  rcases R.cases k with ⟨h1, h2⟩ | ⟨m, d, g, f, p, h1, h2, h3, h4, h5⟩ | ⟨m, r, h1, h2, h3, h4, h5⟩ | ⟨m, r, h1, h2, h3, h4, h5⟩ |
    ⟨m, r, n, f, c, q, h1, h2, h3, h4, q1, q2, hin, hl, ho⟩ | ⟨m, d, g, f, p, h1, h2, h3, h4, h5⟩ | ⟨m, h1, h2, h3, h4⟩
  · exact .noop R (by simp only [World.act, h2]) (.invalid (by simp [Seq.takes, h1]))
  · obtain ⟨c', d', g', e1, A, e2⟩ := cloneSide_ret R.reach R.quiet h3 sd
    exact .of (by simp only [World.act, h4]; rfl) (.cloneSide h1 e1)
      (R.pushed (.refl _) A R.core R.memz rfl (.shared d' g' false f _ (by rw [e2, tgt_eq R h3 h5])) rfl)
  · exact .noop R (by simp only [World.act, h4]) (.invalid (by simp [Seq.takes, h1]))
  · exact .noop R (by simp only [World.act, h4]) (.invalid (by simp [Seq.takes, h1]))
  · exact .noop R (by simp only [World.act, h4]) (.invalid (by simp [Seq.takes, h1]))
  · exact .noop R (by simp only [World.act, h4]) (.invalid (by simp [Seq.takes, h1]))
  · exact .noop R (by simp only [World.act, h4]) (.invalid (by simp [Seq.takes, h1]))


/-! ### Splitting -/

theorem grow_of_eq {k k' : Skel} (h : k' = k) : Grow k k' := by subst h; exact .refl _

theorem regSplit_eq {h h0 : Heap α} {r r1 r2 : Reg} {sd : Side} (e : regSplitOff h r sd = .ok (h0, r1, r2)) :
    h0.sk = h.sk ∧ h0.slot = h.slot ∧ r1.buf = r.buf ∧ r2.buf = r.buf ∧ (⟨r1.off, r1.len⟩, ⟨r2.off, r2.len⟩) = (Rng.mk r.off r.len).split sd ∧
      r1.alloc.isSome = (r.alloc.isSome && decide (0 < r1.len)) ∧ r2.alloc = r.alloc := by
  have hsh : r.len >>> 1 = r.len / 2 := by rw [Nat.shiftRight_eq_div_pow]
  simp only [regSplitOff] at e
  obtain ⟨h1, e1, e2⟩ := bind_ok e
  cases pure_ok e2
  have hsl : h0.slot = h.slot := by
    exact incSOpt_slot e1
  refine ⟨incSOpt_sk e1, hsl, ?_, ?_, ?_, ?_, ?_⟩
  · cases sd <;> rfl
  · cases sd <;> rfl
  · cases sd <;> simp only [Rng.split, Rng.left, Rng.right, hsh]
  · cases sd <;> simp only <;> split <;> simp <;> omega
  · cases sd <;> rfl

/-- A handle is replaced by two. -/
theorem SR.split2 (R : SR P umax zst s w) {r1 r2 : Reg} {e0 : Ent} {i1 i2 : Kind} {y1 y2 : Hand}
    (A : After P zst h0 (s.c.hs.set m none) [⟨.uniq r1, false⟩, ⟨.uniq r2, false⟩] c') (ek : h0.sk = s.c.a.b.sk) (es : h0.slot = s.c.a.b.slot)
    (hk : s.tab[k]?.join = some (m, it0)) (hm : s.c.get m = some e0) (q1 : ER umax c'.a.b.sk ⟨.uniq r1, false⟩ i1 y1)
    (q2 : ER umax c'.a.b.sk ⟨.uniq r2, false⟩ i2 y2) :
    SR P umax zst (((s.to c').put k (s.c.hs.length + 1) i2).push s.c.hs.length i1) ((w.put k y2).push y1).settle := by
  have hml : m < s.c.hs.length := join_lt hm
  have hg : c'.get = upd (upd (upd s.c.get m none) (s.c.hs.length + 1) (some ⟨.uniq r2, false⟩)) s.c.hs.length (some ⟨.uniq r1, false⟩) := by
    have e3 : c'.hs = (s.c.hs.set m none ++ [some ⟨.uniq r1, false⟩]) ++ [some ⟨.uniq r2, false⟩] := by simpa using A.hs
    rw [get_push e3]
    funext x
    simp only [join_push, upd, List.length_append, List.length_set, List.length_cons, List.length_nil]
    have : (s.c.hs.set m none)[x]?.join = upd s.c.get m none x := congrFun get_set x
    rw [this]
    simp only [upd]
    grind
  refine ⟨SR0.finish (h0 := h0) A
    ((R.core.grow (grow_of_eq ek) (by rw [ek]) (by rw [ek]) (by rw [ek]) es).hs rfl) (by rw [ek]; exact R.memz) ?_, fun m' e' h => ?_⟩
  · show TabR umax c'.get _ _ (w.hs.set k _ ++ _)
    rw [hg]
    refine ((R.grown (grow_of_eq ek) A).put hk ?_ q2).push ?_ q1
    · rw [upd_ne _ _ (by omega)]; simp [Conf.get]
    · rw [upd_ne _ _ (by omega), upd_ne _ _ (by omega)]; simp [Conf.get]
  · have h : c'.get m' = some e' := h
    rw [hg] at h
    simp only [upd] at h
    split at h
    · cases h; rfl
    · split at h
      · cases h; rfl
      · split at h
        · cases h
        · exact R.nomut m' e' h

theorem sim_splitOff (R : SR P umax zst s w) (sd : Side) (k : Nat) : Sim P umax zst s w (.splitOff sd k) := by
  rcases R.cases k with ⟨h1, h2⟩ | ⟨m, d, g, f, p, h1, h2, h3, h4, h5⟩ | ⟨m, r, h1, h2, h3, h4, h5⟩ | ⟨m, r, h1, h2, h3, h4, h5⟩ |
    ⟨m, r, n, f, c, q, h1, h2, h3, h4, q1, q2, hin, hl, ho⟩ | ⟨m, d, g, f, p, h1, h2, h3, h4, h5⟩ | ⟨m, h1, h2, h3, h4⟩
  · exact .noop R (by simp only [World.act, h2]) (.invalid (by simp [Seq.takes, h1]))
  · -- three calls
    have hml : m < s.c.hs.length := join_lt h3
    obtain ⟨c1, dl, gl, r1, A1, l1⟩ := cloneSide_ret R.reach R.quiet h3 .L
    have hs1 : c1.hs = s.c.hs ++ [some ⟨.strong dl gl, false⟩] := A1.hs
    have g1 : c1.get m = some ⟨.strong d g, false⟩ := by
      rw [get_push hs1, upd_ne _ _ (by omega)]; exact h3
    have gl1 : c1.get s.c.hs.length = some ⟨.strong dl gl, false⟩ := by rw [get_push hs1]; exact upd_same _ _ _
    obtain ⟨c2, dr, gr, r2, A2, l2⟩ := cloneSide_ret A1.reach A1.quiet g1 .R
    have hs2 : c2.hs = c1.hs ++ [some ⟨.strong dr gr, false⟩] := A2.hs
    have hln : c1.hs.length = s.c.hs.length + 1 := by rw [hs1]; simp
    have g2 : c2.get m = some ⟨.strong d g, false⟩ := by
      rw [get_push hs2, upd_ne _ _ (by omega)]; exact g1
    have gr2 : c2.get c1.hs.length = some ⟨.strong dr gr, false⟩ := by rw [get_push hs2]; exact upd_same _ _ _
    obtain ⟨c3, r3, A3⟩ := drop_ret A2.reach A2.quiet (.inl ⟨d, g, g2⟩)
    have lt : ∀ {c : Conf α} {m d g b}, Conf.Reach P zst c → c.get m = some ⟨.strong d g, b⟩ → d < c.a.b.sk.next := fun h hm =>
      (h.BI Solo.tame).heap.lt (ref_mem_aS (Conf.get_tok' hm (t := .ref _) (by simp [entT])))
    have hd0 := lt R.reach h3
    have A : After P zst s.c.a.b (c2.hs.set m none) [] c3 := by
      refine ⟨A3.reach, A3.quiet, (A1.keep.trans A2.keep).trans A3.keep, Nat.le_trans (Nat.le_trans A1.next A2.next) A3.next, fun x hx => ?_, A3.hs⟩
      have := A1.next; have := A2.next
      rw [A3.lab x (by omega), A2.lab x (by omega), A1.lab x hx]
    have tl : c3.a.b.sk.lab dl = ⟨f, w.halfPath f p .L⟩ := by
      have hdl := lt A1.reach gl1
      have := A2.next
      rw [A3.lab dl (by omega), A2.lab dl hdl, l1, tgt_eq R h3 h5]
    have tr : c3.a.b.sk.lab dr = ⟨f, w.halfPath f p .R⟩ := by
      have B1 := A1.reach.BI Solo.tame
      obtain ⟨v, hd⟩ := data_of_strong (R.reach.BI Solo.tame) h3
      obtain ⟨v1, hd1⟩ := data_of_strong B1 g1
      have el : c1.a.b.sk.lab d = ⟨f, p⟩ := by rw [A1.lab d hd0]; exact h5
      have C1 := Core.trim R.core A1.keep
      obtain ⟨_, e1, _⟩ := data_rng (R.reach.BI Solo.tame).heap R.core hd h5
      obtain ⟨_, e2, _⟩ := data_rng B1.heap C1 hd1 el
      have e3 : v1.len = v.len := by
        have : (trim w c1.a.b).rangeOf f p = w.rangeOf f p := rfl
        rw [this, e1] at e2; exact (congrArg Rng.len e2).symm
      rw [A3.lab dr (lt A2.reach gr2), l2, ← tgt_eq R h3 h5]
      simp only [tgtL, hd, hd1, e3, el, h5]
    have hg : c3.get = upd (upd (upd s.c.get s.c.hs.length (some ⟨.strong dl gl, false⟩)) (s.c.hs.length + 1) (some ⟨.strong dr gr, false⟩)) m none := by
      have e1 := get_set (hs := c2.hs) (m0 := m)
      have e2 : c3.hs = c2.hs.set m none := by simpa using A3.hs
      rw [← e2] at e1
      have e3 : c3.get = upd c2.get m none := e1
      have e4 : c2.get = upd c1.get c1.hs.length _ := get_push hs2
      have e5 : c1.get = upd s.c.get s.c.hs.length _ := get_push hs1
      rw [e3, e4, e5, hln]
    have nm : ∀ m' e', c3.get m' = some e' → e'.mutb = false := by
      intro m' e' h
      rw [hg] at h
      simp only [upd] at h
      split at h
      · cases h
      · split at h
        · cases h; rfl
        · split at h
          · cases h; rfl
          · exact R.nomut m' e' h
    have T0 := R.grown (.refl _) A
    have n0 : ∀ x, s.c.get (s.c.hs.length + x) = none := by
      intro x; simp [Conf.get]
    have a1 : ∀ {ea eb : Ent} {na nb : Nat} {pa pb : List Side}, na ≠ nb → na ≠ m → nb ≠ m → s.c.get na = none → s.c.get nb = none →
        ER umax c3.a.b.sk ea .plain (.shared f pa) → ER umax c3.a.b.sk eb .plain (.shared f pb) →
        c3.get = upd (upd (upd s.c.get m none) na (some ea)) nb (some eb) →
        SR P umax zst (((s.to c3).put k na).push nb) ((w.put k (.shared f pa)).push (.shared f pb)).settle := by
      intro ea eb na nb pa pb hne hna hnb ga gb ra rb hg'
      refine ⟨SR0.finish A (R.core.hs rfl) R.memz ?_, nm⟩
      show TabR umax c3.get _ _ (w.hs.set k _ ++ _)
      rw [hg']
      refine (T0.put h2 (by rw [upd_ne _ _ hna]; exact ga) ra).push ?_ rb
      rw [upd_ne _ _ (Ne.symm hne), upd_ne _ _ hnb]; exact gb
    rw [hln] at r2
    cases sd with
    | L =>
      refine .of (by simp only [World.act, h4]) (.splitL h1 r1 r2 r3)
        (a1 (by omega) (by omega) (by omega) (n0 1) (n0 0) (.shared dr gr false f _ tr) (.shared dl gl false f _ tl) ?_)
      rw [hg]; funext x; simp only [upd]; grind
    | R =>
      refine .of (by simp only [World.act, h4]) (.splitR h1 r1 r2 r3)
        (a1 (by omega) (by omega) (by omega) (n0 0) (n0 1) (.shared dl gl false f _ tl) (.shared dr gr false f _ tr) ?_)
      rw [hg]; funext x; simp only [upd]; grind
  · obtain ⟨c', h0, r1, r2, e1, e2, A⟩ := split_ret R.reach R.quiet h3 sd
    obtain ⟨ek, es, b1, b2, hrr, ha1, ha2⟩ := regSplit_eq e2
    have hml : m < s.c.hs.length := join_lt h3
    have hs := congrArg Prod.fst hrr
    have ht := congrArg Prod.snd hrr
    simp only at hs ht
    have hin1 : RngIn h0.sk r1.buf ⟨r1.off, r1.len⟩ := by
      rw [ek, b1]; refine h5.sub ?_
      rw [hs]; cases sd <;> simp only [Rng.split, Rng.left, Rng.right] <;> omega
    have hin2 : RngIn h0.sk r2.buf ⟨r2.off, r2.len⟩ := by
      rw [ek, b2]; refine h5.sub ?_
      rw [ht]; cases sd <;> simp only [Rng.split, Rng.left, Rng.right] <;> omega
    have q1 := ER.uniq (umax := umax) r1 false (A.keep.rngIn hin1)
    have q2 := ER.uniq (umax := umax) r2 false (A.keep.rngIn hin2)
    rw [hs, b1, ha1] at q1
    rw [ht, b2, ha2] at q2
    have hl1 : r1.len = ((Rng.mk r.off r.len).split sd).1.len := by rw [← hs]
    rw [hl1] at q1
    exact .of (by simp only [World.act, h4]) (.splitMut h1 e1) (R.split2 A ek es h2 h3 q1 q2)
  · exact .noop R (by simp only [World.act, h4]) (.invalid (by simp [Seq.takes, h1]))
  · exact .noop R (by simp only [World.act, h4]) (.invalid (by simp [Seq.takes, h1]))
  · exact .noop R (by simp only [World.act, h4]) (.invalid (by simp [Seq.takes, h1]))
  · exact .noop R (by simp only [World.act, h4]) (.invalid (by simp [Seq.takes, h1]))

/-! ### Unique slices, iterators, drops -/

theorem sim_intoImmut (R : SR P umax zst s w) (k : Nat) : Sim P umax zst s w (.intoImmut k) := by
  rcases R.cases k with ⟨h1, h2⟩ | ⟨m, d, g, f, p, h1, h2, h3, h4, h5⟩ | ⟨m, r, h1, h2, h3, h4, h5⟩ | ⟨m, r, h1, h2, h3, h4, h5⟩ |
    ⟨m, r, n, f, c, q, h1, h2, h3, h4, q1, q2, hin, hl, ho⟩ | ⟨m, d, g, f, p, h1, h2, h3, h4, h5⟩ | ⟨m, h1, h2, h3, h4⟩
  · exact .noop R (by simp only [World.act, h2]) (.invalid (by simp [Seq.takes, h1]))
  · exact .noop R (by simp only [World.act, h4]) (.invalid (by simp [Seq.takes, h1]))
  · obtain ⟨c', d', g', e1, A, e2⟩ := intoImmut_ret R.reach R.quiet h3
    exact .of (by simp only [World.act, h4]; rfl) (.intoImmut h1 e1)
      (R.replaced (root_grow _ _) A (root_core R.core h5) R.memz rfl h2 (.shared d' g' false _ _ (by rw [e2, R.core.nfam])) rfl)
  · exact .noop R (by simp only [World.act, h4]) (.invalid (by simp [Seq.takes, h1]))
  · exact .noop R (by simp only [World.act, h4]) (.invalid (by simp [Seq.takes, h1]))
  · exact .noop R (by simp only [World.act, h4]) (.invalid (by simp [Seq.takes, h1]))
  · exact .noop R (by simp only [World.act, h4]) (.invalid (by simp [Seq.takes, h1]))

/-- What the pointers of an `ArcSliceMutParts` say. -/
theorem partsReg_pos (C : Core umax s.c.a.b w) {b m f c : Nat} {q : Rng} {a : Option Nat} (h1 : f + c ≤ 2 ^ m) (hin : RngIn s.c.a.b.sk b q) :
    partsReg umax s.c.a.b b a (.pstate (posCtx umax umax) m f c q) = .ok ⟨b, (restRng m f c q).off, (restRng m f c q).len, a⟩ := by
  simp only [partsReg]
  rw [asSlice_pos (C.blen b) (C.rng_le hin).1 h1]; rfl

omit [Solo P] in
/-- Pointers and items agree. -/
theorem SR0.agree (R : SR0 P umax zst s w) (k : Nat) : s.agrees umax k := by
  rcases R.tab.at_ k with ⟨h1, h2⟩ | ⟨m, it, y, e, h1, h2, h3, h4⟩
  · simp only [Seq.agrees, Seq.at', h1]
  · cases h4 with
    | shared d g b f p hl => simp only [Seq.agrees, Seq.at', h1, h3]
    | weak d g b f p hl => simp only [Seq.agrees, Seq.at', h1, h3]
    | weakNone b => simp only [Seq.agrees, Seq.at', h1, h3]
    | uniq r b hin => simp only [Seq.agrees, Seq.at', h1, h3]
    | iter r b hin => simp only [Seq.agrees, Seq.at', h1, h3]
    | parts r b m f c q q1 q2 hin hl ho =>
      simp only [Seq.agrees, Seq.at', h1, h3]
      refine ⟨_, partsReg_pos R.core q1 hin, hl.symm, fun h => ?_⟩
      rcases Nat.lt_or_eq_of_le q1 with h5 | h5
      · exact (ho h5).symm
      · rw [hl, done_len h5] at h; omega

theorem sim_drop (R : SR P umax zst s w) (k : Nat) : Sim P umax zst s w (.drop k) := by
  rcases R.cases k with ⟨h1, h2⟩ | ⟨m, d, g, f, p, h1, h2, h3, h4, h5⟩ | ⟨m, r, h1, h2, h3, h4, h5⟩ | ⟨m, r, h1, h2, h3, h4, h5⟩ |
    ⟨m, r, n, f, c, q, h1, h2, h3, h4, q1, q2, hin, hl, ho⟩ | ⟨m, d, g, f, p, h1, h2, h3, h4, h5⟩ | ⟨m, h1, h2, h3, h4⟩
  · exact .noop R (by simp only [World.act, h2]) (.invalid (by simp [Seq.takes, h1]))
  · obtain ⟨c', e1, A⟩ := drop_ret R.reach R.quiet (.inl ⟨d, g, h3⟩)
    exact .of (by simp only [World.act, h4]) (.drop (by rw [h1]; rfl) (R.toSR0.agree k) h2 e1) (R.gone A h2)
  · obtain ⟨c', e1, A⟩ := drop_ret R.reach R.quiet (.inr ⟨r, h3⟩)
    exact .of (by simp only [World.act, h4]) (.drop (by rw [h1]; rfl) (R.toSR0.agree k) h2 e1) (R.gone A h2)
  · obtain ⟨c', e1, A⟩ := drop_ret R.reach R.quiet (.inr ⟨r, h3⟩)
    exact .of (by simp only [World.act, h4]) (.drop (by rw [h1]; rfl) (R.toSR0.agree k) h2 e1) (R.gone A h2)
  · obtain ⟨c', e1, A⟩ := drop_ret R.reach R.quiet (.inr ⟨r, h3⟩)
    exact .of (by simp only [World.act, h4]) (.drop (by rw [h1]; rfl) (R.toSR0.agree k) h2 e1) (R.gone A h2)
  · obtain ⟨c', e1, A⟩ := dropWeak_ret R.reach R.quiet h3
    exact .of (by simp only [World.act, h4]) (.drop (by rw [h1]; rfl) (R.toSR0.agree k) h2 e1) (R.gone A h2)
  · obtain ⟨c', e1, A⟩ := dropWeak_ret R.reach R.quiet h3
    exact .of (by simp only [World.act, h4]) (.drop (by rw [h1]; rfl) (R.toSR0.agree k) h2 e1) (R.gone A h2)

theorem shows_ok (R : SR0 P umax zst s w) {e : Ent} (hm : s.c.get m = some e) (hr : ER umax s.c.a.b.sk e it y) (hv : (w.view y).isSome = true) :
    ∃ b r r', Conf.range s.c.a e.h = .ok (some (b, r.off, r.len)) ∧ (w.view y = some (b, r') ∧ (r' = r ∨ (r'.len = 0 ∧ r.len = 0))) ∧
      (0 < r.len → s.c.a.b.accessible b = true) ∧ (∀ j, r.off ≤ j → j < r.off + r.len → ∃ a, s.c.a.b.slot b j = .live a) := by
  have B := R.reach.BI Solo.tame
  have reg : ∀ q : Reg, e.h = .uniq q → (0 < q.len → s.c.a.b.accessible q.buf = true) ∧
      (∀ j, q.off ≤ j → j < q.off + q.len → ∃ a, s.c.a.b.slot q.buf j = .live a) := by
    intro q hq
    have ht : AT.reg q ∈ s.c.T := Conf.get_tok' hm (by simp [entT, hq])
    exact ⟨fun h => B.heap.accessible ht h, fun j h1 h2 => B.heap.reg_live ht h1 h2⟩
  cases hr with
  | shared d g mb f p hl =>
    obtain ⟨v, hd⟩ := data_of_strong B hm
    obtain ⟨r1, r2, _, _⟩ := data_rng B.heap R.core hd hl
    refine ⟨v.buf, ⟨v.off, v.len⟩, ⟨v.off, v.len⟩, ?_, ⟨by simp only [World.view, r1, r2], .inl rfl⟩, fun h => B.heap.good.data_accessible hd h,
      fun j h1 h2 => B.heap.good.data_items hd h1 h2⟩
    simp only [Conf.range, getData_ok hd]; rfl
  | weak d g mb f p hl => cases hv
  | weakNone mb => cases hv
  | uniq r mb hin => exact ⟨r.buf, ⟨r.off, r.len⟩, _, rfl, ⟨rfl, .inl rfl⟩, reg r rfl⟩
  | iter r mb hin => exact ⟨r.buf, ⟨r.off, r.len⟩, _, rfl, ⟨rfl, .inl rfl⟩, reg r rfl⟩
  | parts r mb m f c q q1 q2 hin hl ho =>
    refine ⟨r.buf, ⟨r.off, r.len⟩, restRng m f c q, rfl, ⟨by simp only [World.view, win_view q1], ?_⟩, reg r rfl⟩
    rcases Nat.lt_or_eq_of_le q1 with h | h
    · exact .inl (by rw [hl, ho h])
    · exact .inr ⟨done_len h, by rw [hl]; exact done_len h⟩

theorem sim_read (R : SR P umax zst s w) (k : Nat) : Sim P umax zst s w (.read k) := by
  have key : ∀ {m it y e} (_ : s.takes umax (.read k) = true), s.tab[k]?.join = some (m, it) → s.c.get m = some e → w.get k = some y →
      ER umax s.c.a.b.sk e it y → (w.view y).isSome = true → Sim P umax zst s w (.read k) := by
    intro m it y e h1 h2 h3 h4 h5 h7
    obtain ⟨b, r, r', a1, ⟨a2, a5⟩, a3, a4⟩ := shows_ok R.toSR0 h3 h5 h7
    obtain ⟨h6, _⟩ := readRange_ok a3 a4
    have el : w.look b r' = w.look b r := by
      rcases a5 with rfl | ⟨l1, l2⟩
      · rfl
      · simp only [World.look, Rng.items, l1, l2]; rfl
    refine .noop R (o := .items (w.look b r)) (by simp only [World.act, h4, a2, el]) (.read h1 (R.toSR0.agree k) (by rw [h2]; rfl) h3 a1 ?_)
    rw [look_eq (s := ⟨s.c.a.b, []⟩) R.core]; exact h6
  rcases R.cases k with ⟨h1, h2⟩ | ⟨m, d, g, f, p, h1, h2, h3, h4, h5⟩ | ⟨m, r, h1, h2, h3, h4, h5⟩ | ⟨m, r, h1, h2, h3, h4, h5⟩ |
    ⟨m, r, n, f, c, q, h1, h2, h3, h4, q1, q2, hin, hl, ho⟩ | ⟨m, d, g, f, p, h1, h2, h3, h4, h5⟩ | ⟨m, h1, h2, h3, h4⟩
  · exact .noop R (by simp only [World.act, h2]) (.invalid (by simp [Seq.takes, h1]))
  · exact key (by simp only [Seq.takes, h1]) h2 h3 h4 (.shared d g false f p h5) rfl
  · exact key (by simp only [Seq.takes, h1]) h2 h3 h4 (.uniq r false h5) rfl
  · exact key (by simp only [Seq.takes, h1]) h2 h3 h4 (.iter r false h5) rfl
  · exact key (by simp only [Seq.takes, h1]) h2 h3 h4 (.parts r false n f c q q1 q2 hin hl ho) rfl
  · exact .noop R (by simp only [World.act, h4, World.view]) (.invalid (by simp [Seq.takes, h1]))
  · exact .noop R (by simp only [World.act, h4, World.view]) (.invalid (by simp [Seq.takes, h1]))

/-- An item is overwritten. -/
theorem SR0.written (R : SR0 P umax zst s w) {e : Ent} (hm : s.c.get m = some e) (hw : Conf.writable e = true) (hr : ER umax s.c.a.b.sk e it y)
    {b : Nat} {r : Rng} (hv : w.view y = some (b, r)) {j : Nat} (hj : j < r.len) (x : α) :
    ∃ c', s.c.write e j x = .ok c' ∧ c'.hs = s.c.hs ∧ SR0 P umax zst (s.to c') (w.store b (r.off + j) (.live x)) := by
  obtain ⟨b', r1, r', a1, ⟨a2, a5⟩, a3, a4⟩ := shows_ok R hm hr (by rw [hv]; rfl)
  rw [hv] at a2; cases a2
  have a6 : r = r1 := by
    rcases a5 with h | ⟨h, _⟩
    · exact h
    · omega
  subst a6
  obtain ⟨a0, ha0⟩ := a4 (r.off + j) (by omega) (by omega)
  have e1 := writeItem_ok (a' := x) (a3 (by omega)) ha0
  have e2 : s.c.write e j x = .ok { s.c with a := s.c.a.withB (s.c.a.b.setSlot b (r.off + j) (.live x)) } := by
    simp only [Conf.write, a1, bind, Except.bind]
    rw [if_pos hj, e1]; rfl
  refine ⟨_, e2, rfl, ?_, R.quiet, R.core.store _ _ _, R.tab⟩
  exact .write R.reach m e j x hm hw e2

theorem sim_write (R : SR P umax zst s w) (k j : Nat) (a : α) : Sim P umax zst s w (.write k j a) := by
  have key : ∀ {m it y r} {r' : Rng} (_ : s.at' k = some (.uniq m r) ∨ s.at' k = some (.iter m r) ∨ ∃ it, s.at' k = some (.parts m r it)),
      s.c.get m = some ⟨.uniq r, false⟩ →
      ER umax s.c.a.b.sk ⟨.uniq r, false⟩ it y → w.view y = some (r.buf, r') → r'.len = r.len →
      w.act umax (.write k j a) = (if j < r'.len then (w.store r.buf (r'.off + j) (.live a), .done) else (w, .panicked)) →
      Sim P umax zst s w (.write k j a) := by
    intro m it y r r' h1 h3 h5 h6 h8 h7
    by_cases hj : j < r'.len
    · obtain ⟨c', e1, e2, R'⟩ := R.toSR0.written h3 rfl h5 h6 hj a
      rw [if_pos hj] at h7
      refine .of h7 (.writeMut h1 (R.toSR0.agree k) (h8 ▸ hj) e1) ?_
      rw [R'.settled]
      exact ⟨R', fun m' e' h => R.nomut m' e' (by simpa [Seq.to, Conf.get, e2] using h)⟩
    · rw [if_neg hj] at h7
      exact .noop R h7 (.writeOut h1 (R.toSR0.agree k) (h8 ▸ hj))
  rcases R.cases k with ⟨h1, h2⟩ | ⟨m, d, g, f, p, h1, h2, h3, h4, h5⟩ | ⟨m, r, h1, h2, h3, h4, h5⟩ | ⟨m, r, h1, h2, h3, h4, h5⟩ |
    ⟨m, r, n, f, c, q, h1, h2, h3, h4, q1, q2, hin, hl, ho⟩ | ⟨m, d, g, f, p, h1, h2, h3, h4, h5⟩ | ⟨m, h1, h2, h3, h4⟩
  · exact .noop R (by simp only [World.act, h2]) (.invalid (by simp [Seq.takes, h1]))
  · exact .noop R (by simp only [World.act, h4]) (.invalid (by simp [Seq.takes, h1]))
  · exact key (r' := ⟨r.off, r.len⟩) (.inl h1) h3 (.uniq r false h5) rfl rfl (by simp only [World.act, h4, World.view])
  · exact key (r' := ⟨r.off, r.len⟩) (.inr (.inl h1)) h3 (.iter r false h5) rfl rfl (by simp only [World.act, h4, World.view])
  · exact key (r' := restRng n f c q) (.inr (.inr ⟨_, h1⟩)) h3 (.parts r false n f c q q1 q2 hin hl ho)
      (by simp only [World.view, win_view q1]) hl.symm (by simp only [World.act, h4, World.view, win_view q1])
  · exact .noop R (by simp only [World.act, h4, World.view]) (.invalid (by simp [Seq.takes, h1]))
  · exact .noop R (by simp only [World.act, h4, World.view]) (.invalid (by simp [Seq.takes, h1]))

theorem sim_intoIter (R : SR P umax zst s w) (k : Nat) : Sim P umax zst s w (.intoIter k) := by
  rcases R.cases k with ⟨h1, h2⟩ | ⟨m, d, g, f, p, h1, h2, h3, h4, h5⟩ | ⟨m, r, h1, h2, h3, h4, h5⟩ | ⟨m, r, h1, h2, h3, h4, h5⟩ |
    ⟨m, r, n, f, c, q, h1, h2, h3, h4, q1, q2, hin, hl, ho⟩ | ⟨m, d, g, f, p, h1, h2, h3, h4, h5⟩ | ⟨m, h1, h2, h3, h4⟩
  · exact .noop R (by simp only [World.act, h2]) (.invalid (by simp [Seq.takes, h1]))
  · exact .noop R (by simp only [World.act, h4]) (.invalid (by simp [Seq.takes, h1]))
  · have T := R.tab.put h2 (m := m) (e := ⟨.uniq r, false⟩) (by exact upd_same _ _ _) (.iter r false h5)
    have hg : upd (upd s.c.get m none) m (some ⟨.uniq r, false⟩) = s.c.get := by
      funext x; simp only [upd]; split
      · next h => subst h; exact h3.symm
      · rfl
    rw [hg] at T
    have R' : SR0 P umax zst (s.put k m .iter) (w.put k (.iter r.buf ⟨r.off, r.len⟩ r.alloc.isSome)) :=
      ⟨R.reach, R.quiet, R.core.hs rfl, T⟩
    refine .of (w' := w.put k (.iter r.buf ⟨r.off, r.len⟩ r.alloc.isSome)) (by simp only [World.act, h4]) (.intoIter h1) ?_
    rw [R'.settled]
    exact ⟨R', R.nomut⟩
  · exact .noop R (by simp only [World.act, h4]) (.invalid (by simp [Seq.takes, h1]))
  · exact .noop R (by simp only [World.act, h4]) (.invalid (by simp [Seq.takes, h1]))
  · exact .noop R (by simp only [World.act, h4]) (.invalid (by simp [Seq.takes, h1]))
  · exact .noop R (by simp only [World.act, h4]) (.invalid (by simp [Seq.takes, h1]))

theorem ER.iter' {k : Skel} {r : Reg} {b : Nat} (hb : r.buf = b) (hin : RngIn k b ⟨r.off, r.len⟩) :
    ER umax k ⟨.uniq r, false⟩ .iter (.iter b ⟨r.off, r.len⟩ r.alloc.isSome) := by subst hb; exact .iter r false hin

theorem put_same {w : World α} {k : Nat} {y : Hand} (h : w.get k = some y) : w.put k y = w := by
  have : w.hs.set k (some y) = w.hs := by
    have h6 : w.hs[k]?.join = some y := h
    apply List.ext_getElem?
    intro i
    rw [List.getElem?_set]
    split
    · next h =>
      subst h; rw [if_pos (join_lt h6)]
      cases h7 : w.hs[k]? with
      | none => rw [h7] at h6; cases h6
      | some o => rw [h7] at h6; simp only [Option.join_some] at h6; rw [h6]
    · rfl
  simp only [World.put, this]

theorem sim_next (R : SR P umax zst s w) (en : End) (k : Nat) : Sim P umax zst s w (.next en k) := by
  rcases R.cases k with ⟨h1, h2⟩ | ⟨m, d, g, f, p, h1, h2, h3, h4, h5⟩ | ⟨m, r, h1, h2, h3, h4, h5⟩ | ⟨m, r, h1, h2, h3, h4, h5⟩ |
    ⟨m, r, n, f, c, q, h1, h2, h3, h4, q1, q2, hin, hl, ho⟩ | ⟨m, d, g, f, p, h1, h2, h3, h4, h5⟩ | ⟨m, h1, h2, h3, h4⟩
  · exact .noop R (by simp only [World.act, h2]) (.invalid (by simp [Seq.takes, h1]))
  · exact .noop R (by simp only [World.act, h4]) (.invalid (by simp [Seq.takes, h1]))
  · exact .noop R (by simp only [World.act, h4]) (.invalid (by simp [Seq.takes, h1]))
  · obtain ⟨c', h0, o, r', ts, e1, e2, A⟩ := next_ret R.reach R.quiet h3 en
    have I := (R.reach.BI Solo.tame).heap
    have ht : AT.reg r ∈ s.c.T := Conf.get_tok' h3 (by simp [entT])
    by_cases hl : r.len = 0
    · simp only [iterNext] at e2
      rw [if_pos hl] at e2
      cases e2
      refine .of (w' := w.put k (.iter r.buf ⟨r.off, r.len⟩ false)) ?_ (.nextNone h1 e1)
        (R.replaced (.refl _) A R.core R.memz rfl h2 (.iter' (r := { r with alloc := none }) rfl (A.keep.rngIn h5)) rfl)
      simp only [World.act, h4]; rw [if_pos hl]
    · obtain ⟨pos, rest, hpos, hrest⟩ : ∃ (pos : Nat) (rest : Reg), pos = (match en with | .front => r.off | .back => r.off + r.len - 1) ∧
          rest = (match en with
            | .front => ({ r with off := r.off + 1, len := r.len - 1 } : Reg)
            | .back => { r with len := r.len - 1 }) := ⟨_, _, rfl, rfl⟩
      have p1 : r.off ≤ pos ∧ pos < r.off + r.len := by subst hpos; cases en <;> simp only <;> omega
      have b1 : rest.buf = r.buf := by subst hrest; cases en <;> rfl
      have b2 : rest.alloc = r.alloc := by subst hrest; cases en <;> rfl
      have b3 : rest.len = r.len - 1 := by subst hrest; cases en <;> rfl
      have b5 : rest.off + rest.len ≤ r.off + r.len := by subst hrest; cases en <;> simp only <;> omega
      have hacc := I.accessible ht (by omega)
      obtain ⟨a, ha⟩ := I.reg_live ht p1.1 p1.2
      have hin' : RngIn s.c.a.b.sk r.buf ⟨rest.off, rest.len⟩ := h5.sub b5
      have hw : w.items r.buf pos = .live a := by rw [R.core.items]; exact ha
      have hact : w.act umax (.next en k) = ((w.store r.buf pos .moved).put k
          (.iter r.buf ⟨rest.off, rest.len⟩ (r.alloc.isSome && decide (0 < rest.len))), .item a) := by
        simp only [World.act, h4]
        rw [if_neg hl]
        cases en <;> (simp only at hpos hrest; subst hpos hrest; rw [hw])
      have hnext : iterNext s.c.a.b r en = if rest.len = 0 then
            .ok (s.c.a.b.setSlot r.buf pos .moved, some a, { rest with alloc := none }, r.alloc.toList.map .dropS)
          else .ok (s.c.a.b.setSlot r.buf pos .moved, some a, rest, []) := by
        simp only [iterNext]
        rw [if_neg hl, hacc]
        cases en <;> (simp only at hpos hrest; subst hpos hrest; rw [ha]; rfl)
      rw [hnext] at e2
      split at e2
      · next hr0 =>
        simp only [Except.ok.injEq, Prod.mk.injEq] at e2
        obtain ⟨e3, e4, e5, -⟩ := e2
        subst e3 e4 e5
        rw [show (r.alloc.isSome && decide (0 < rest.len)) = false by simp [hr0]] at hact
        exact .of hact (.next h1 e1)
          (R.replaced (h0 := s.c.a.b.setSlot r.buf pos .moved) (w' := w.store r.buf pos .moved) (.refl _) A (R.core.store _ _ _) R.memz rfl h2
            (.iter' (r := { rest with alloc := none }) b1 (A.keep.rngIn hin')) rfl)
      · next hr0 =>
        simp only [Except.ok.injEq, Prod.mk.injEq] at e2
        obtain ⟨e3, e4, e5, -⟩ := e2
        subst e3 e4 e5
        rw [show (r.alloc.isSome && decide (0 < rest.len)) = rest.alloc.isSome by
          rw [b2]; simp; intro _; omega] at hact
        exact .of hact (.next h1 e1)
          (R.replaced (h0 := s.c.a.b.setSlot r.buf pos .moved) (w' := w.store r.buf pos .moved) (.refl _) A (R.core.store _ _ _) R.memz rfl h2 (.iter' b1 (A.keep.rngIn hin')) rfl)
  · exact .noop R (by simp only [World.act, h4]) (.invalid (by simp [Seq.takes, h1]))
  · exact .noop R (by simp only [World.act, h4]) (.invalid (by simp [Seq.takes, h1]))
  · exact .noop R (by simp only [World.act, h4]) (.invalid (by simp [Seq.takes, h1]))

/-! ### Splitting iterators -/

theorem sim_splitOffFrom (R : SR P umax zst s w) (k n : Nat) : Sim P umax zst s w (.splitOffFrom k n) := by
  rcases R.cases k with ⟨h1, h2⟩ | ⟨m, d, g, f, p, h1, h2, h3, h4, h5⟩ | ⟨m, r, h1, h2, h3, h4, h5⟩ | ⟨m, r, h1, h2, h3, h4, h5⟩ |
    ⟨m, r, n, f, c, q, h1, h2, h3, h4, q1, q2, hin, hl, ho⟩ | ⟨m, d, g, f, p, h1, h2, h3, h4, h5⟩ | ⟨m, h1, h2, h3, h4⟩
  · exact .noop R (by simp only [World.act, h2]) (.invalid (by simp [Seq.takes, h1]))
  · exact .noop R (by simp only [World.act, h4]) (.invalid (by simp [Seq.takes, h1]))
  · exact .noop R (by simp only [World.act, h4]) (.invalid (by simp [Seq.takes, h1]))
  · by_cases hn : n ≤ r.len
    · obtain ⟨c', h0, a1, a2, e1, ek, es, hh, A⟩ := cutB_ret R.reach R.quiet h3 hn
      refine .of ?_ (.splitFrom h1 e1) (R.split2 A ek es h2 h3
        (.iter ⟨r.buf, r.off + n, r.len - n, a1⟩ false (A.keep.rngIn (by rw [ek]; exact h5.sub (by simp only; omega))))
        (.iter ⟨r.buf, r.off, n, a2⟩ false (A.keep.rngIn (by rw [ek]; exact h5.sub (by simp only; omega)))))
      simp only [World.act, h4]; rw [if_pos hn, ← hh]
    · obtain ⟨c', e1, A⟩ := cut_no R.reach R.quiet h3 .back hn
      refine .of (w' := w.put k (.iter r.buf ⟨r.off, r.len⟩ r.alloc.isSome)) ?_ (.splitFromNo h1 e1)
        (R.replaced (.refl _) A R.core R.memz rfl h2 (.iter r false (A.keep.rngIn h5)) rfl)
      simp only [World.act, h4, put_same h4]; rw [if_neg hn]
  · exact .noop R (by simp only [World.act, h4]) (.invalid (by simp [Seq.takes, h1]))
  · exact .noop R (by simp only [World.act, h4]) (.invalid (by simp [Seq.takes, h1]))
  · exact .noop R (by simp only [World.act, h4]) (.invalid (by simp [Seq.takes, h1]))

theorem sim_splitOffTo (R : SR P umax zst s w) (k n : Nat) : Sim P umax zst s w (.splitOffTo k n) := by
  rcases R.cases k with ⟨h1, h2⟩ | ⟨m, d, g, f, p, h1, h2, h3, h4, h5⟩ | ⟨m, r, h1, h2, h3, h4, h5⟩ | ⟨m, r, h1, h2, h3, h4, h5⟩ |
    ⟨m, r, n, f, c, q, h1, h2, h3, h4, q1, q2, hin, hl, ho⟩ | ⟨m, d, g, f, p, h1, h2, h3, h4, h5⟩ | ⟨m, h1, h2, h3, h4⟩
  · exact .noop R (by simp only [World.act, h2]) (.invalid (by simp [Seq.takes, h1]))
  · exact .noop R (by simp only [World.act, h4]) (.invalid (by simp [Seq.takes, h1]))
  · exact .noop R (by simp only [World.act, h4]) (.invalid (by simp [Seq.takes, h1]))
  · by_cases hn : n ≤ r.len
    · obtain ⟨c', h0, a1, a2, e1, ek, es, hh, A⟩ := cutF_ret R.reach R.quiet h3 hn
      refine .of ?_ (.splitTo h1 e1) (R.split2 A ek es h2 h3
        (.iter ⟨r.buf, r.off, n, a1⟩ false (A.keep.rngIn (by rw [ek]; exact h5.sub (by simp only; omega))))
        (.iter ⟨r.buf, r.off + n, r.len - n, a2⟩ false (A.keep.rngIn (by rw [ek]; exact h5.sub (by simp only; omega)))))
      simp only [World.act, h4]; rw [if_pos hn, ← hh]
    · obtain ⟨c', e1, A⟩ := cut_no R.reach R.quiet h3 .front hn
      refine .of (w' := w.put k (.iter r.buf ⟨r.off, r.len⟩ r.alloc.isSome)) ?_ (.splitToNo h1 e1)
        (R.replaced (.refl _) A R.core R.memz rfl h2 (.iter r false (A.keep.rngIn h5)) rfl)
      simp only [World.act, h4, put_same h4]; rw [if_neg hn]
  · exact .noop R (by simp only [World.act, h4]) (.invalid (by simp [Seq.takes, h1]))
  · exact .noop R (by simp only [World.act, h4]) (.invalid (by simp [Seq.takes, h1]))
  · exact .noop R (by simp only [World.act, h4]) (.invalid (by simp [Seq.takes, h1]))

theorem sim_intoParts (R : SR P umax zst s w) (k n : Nat) : Sim P umax zst s w (.intoParts k n) := by
  rcases R.cases k with ⟨h1, h2⟩ | ⟨m, d, g, f, p, h1, h2, h3, h4, h5⟩ | ⟨m, r, h1, h2, h3, h4, h5⟩ | ⟨m, r, h1, h2, h3, h4, h5⟩ |
    ⟨m, r, n, f, c, q, h1, h2, h3, h4, q1, q2, hin, hl, ho⟩ | ⟨m, d, g, f, p, h1, h2, h3, h4, h5⟩ | ⟨m, h1, h2, h3, h4⟩
  · exact .noop R (by simp only [World.act, h2]) (.invalid (by simp [Seq.takes, h1]))
  · exact .noop R (by simp only [World.act, h4]) (.invalid (by simp [Seq.takes, h1]))
  · by_cases hn : n ≤ umax
    · rcases SliceItemsParts.new_cases ⟨r.off, r.len⟩ n with ⟨⟨i, rfl⟩, _⟩ | ⟨hno, he⟩
      · have hnew := SliceItemsParts.new_pow (posCtx umax umax) i ⟨r.off, r.len⟩
        rw [enc_pos] at hnew
        simp only at hnew
        have hrest : restRng i 0 0 ⟨r.off, r.len⟩ = ⟨r.off, r.len⟩ := by
          have hp := Nat.two_pow_pos i
          simp only [restRng]
          rw [if_neg (by omega), cut_zero, Nat.sub_zero, cut_full]
          simp
        have hER := ER.parts (umax := umax) (k := s.c.a.b.sk) r false i 0 0 ⟨r.off, r.len⟩ (Nat.zero_le _) hn h5
          (by rw [hrest]) (fun _ => by rw [hrest])
        rw [win_zero] at hER
        have T := R.tab.put h2 (m := m) (e := ⟨.uniq r, false⟩) (by exact upd_same _ _ _) hER
        have hg : upd (upd s.c.get m none) m (some ⟨.uniq r, false⟩) = s.c.get := by
          funext x; simp only [upd]; split
          · next h => subst h; exact h3.symm
          · rfl
        rw [hg] at T
        have R' : SR0 P umax zst (s.put k m (.parts (.pstate (posCtx umax umax) i 0 0 ⟨r.off, r.len⟩)))
            (w.put k (.parts r.buf (rparts i ⟨r.off, r.len⟩) r.alloc.isSome)) :=
          ⟨R.reach, R.quiet, R.core.hs rfl, T⟩
        refine .of (w' := w.put k (.parts r.buf (rparts i ⟨r.off, r.len⟩) r.alloc.isSome)) ?_ (.intoParts h1 hn hnew) ?_
        · simp only [World.act, h4, Nat.log2_two_pow, if_true, rparts]; rw [if_pos hn]
        · rw [R'.settled]
          exact ⟨R', R.nomut⟩
      · obtain ⟨c', e1, A⟩ := drop_ret R.reach R.quiet (.inr ⟨r, h3⟩)
        refine .of ?_ (.intoPartsNo h1 hn he e1) (R.gone A h2)
        simp only [World.act, h4]; rw [if_pos hn, if_neg fun h => hno ⟨_, h⟩]
    · exact .noop R (by simp only [World.act, h4]; rw [if_neg hn]) (.invalid (by simp [Seq.takes, h1]; omega))
  · exact .noop R (by simp only [World.act, h4]) (.invalid (by simp [Seq.takes, h1]))
  · exact .noop R (by simp only [World.act, h4]) (.invalid (by simp [Seq.takes, h1]))
  · exact .noop R (by simp only [World.act, h4]) (.invalid (by simp [Seq.takes, h1]))
  · exact .noop R (by simp only [World.act, h4]) (.invalid (by simp [Seq.takes, h1]))

theorem agree_push {s : Seq α} {n : Nat} {it : Kind} (hk : s.tab[k]?.join = some (m, it0)) (h : (s.push n it).agrees umax k) :
    s.agrees umax k := by
  have e : (s.push n it).at' k = s.at' k := by
    simp only [Seq.at', Seq.push, join_push]; rw [if_neg (Nat.ne_of_lt (join_lt hk))]
  simp only [Seq.agrees, e] at h ⊢; exact h

/-- One part is cut off: `n` is where, `r1` are the items of the part, `r2` are left. -/
theorem part_step (R : SR P umax zst s w) {en : End} {i f c f' c' n : Nat} {q p : Rng} {r r2 : Reg} {cf : Conf α} {a1 : Option Nat}
    (h1 : s.at' k = some (.parts m r (.pstate (posCtx umax umax) i f c q)))
    (h2 : s.tab[k]?.join = some (m, .parts (.pstate (posCtx umax umax) i f c q))) (h3 : s.c.get m = some ⟨.uniq r, false⟩)
    (h4 : w.get k = some (.parts r.buf (win (rparts i q) f c) r.alloc.isSome)) (q1 : f' + c' ≤ 2 ^ i) (q2 : 2 ^ i ≤ umax)
    (hin : RngIn s.c.a.b.sk r.buf q) (hp : p.off + p.len ≤ q.off + q.len) (hb : r2.buf = r.buf)
    (hl : r2.len = (restRng i f' c' q).len) (ho : f' + c' < 2 ^ i → r2.off = (restRng i f' c' q).off)
    (hcode : Seq.partsStep umax (s.c.a.b.sk.blen r.buf) (.pstate (posCtx umax umax) i f c q) en =
      .ok (some ⟨p.off, p.len⟩, .pstate (posCtx umax umax) i f' c' q))
    (hspec : Spec.deqStep en (win (rparts i q) f c) = (some p, win (rparts i q) f' c'))
    (hn : n = Seq.cutAt r.len p.len en)
    (e1 : Ret s.c (.cut en n m) .handle [s.c.hs.length, s.c.hs.length + 1] cf) (ek : h0.sk = s.c.a.b.sk)
    (es : h0.slot = s.c.a.b.slot) (hh : (a1.isSome, r2.alloc.isSome) = World.splitHolds r.alloc.isSome p.len r2.len)
    (A : After P zst h0 (s.c.hs.set m none) [⟨.uniq ⟨r.buf, p.off, p.len, a1⟩, false⟩, ⟨.uniq r2, false⟩] cf) :
    Sim P umax zst s w (.nextPart en k) := by
  have hml : m < s.c.hs.length := join_lt h3
  have kin : ∀ {b : Nat} {x : Rng}, RngIn s.c.a.b.sk b x → RngIn cf.a.b.sk b x := fun h => A.keep.rngIn (by rw [ek]; exact h)
  have R' := R.split2 A ek es h2 h3 (.uniq ⟨r.buf, p.off, p.len, a1⟩ false (kin (hin.sub hp)))
    (.parts r2 false i f' c' q q1 q2 (kin (by rw [hb]; exact hin)) hl ho)
  have htot : World.total (win (rparts i q) f' c') = r2.len := by
    rw [hl, ← win_view q1]
  have hg : cf.get s.c.hs.length = some ⟨.uniq ⟨r.buf, p.off, p.len, a1⟩, false⟩ := by
    simp [Conf.get, A.hs]
  refine .of ?_ (.nextPart (p := ⟨p.off, p.len⟩) (it' := .pstate (posCtx umax umax) i f' c' q) h1 (R.toSR0.agree k) ?_ (hn ▸ e1) hg ⟨rfl, rfl⟩ ?_) R'
  · simp only [World.act, h4]
    rw [hspec]
    simp only [htot]
    rw [← hh, hb]
  · rw [hcode]; rfl
  · refine agree_push (m := s.c.hs.length + 1) (it0 := .parts (.pstate (posCtx umax umax) i f' c' q)) ?_ (R'.toSR0.agree k)
    simp only [Seq.put, Seq.to]
    rw [join_set _ _ _ _ (join_lt h2), if_pos rfl]

theorem sim_nextPart (R : SR P umax zst s w) (e : End) (k : Nat) : Sim P umax zst s w (.nextPart e k) := by
  rcases R.cases k with ⟨h1, h2⟩ | ⟨m, d, g, f, p, h1, h2, h3, h4, h5⟩ | ⟨m, r, h1, h2, h3, h4, h5⟩ | ⟨m, r, h1, h2, h3, h4, h5⟩ |
    ⟨m, r, n, f, c, q, h1, h2, h3, h4, q1, q2, hin, hl, ho⟩ | ⟨m, d, g, f, p, h1, h2, h3, h4, h5⟩ | ⟨m, h1, h2, h3, h4⟩
  · exact .noop R (by simp only [World.act, h2]) (.invalid (by simp [Seq.takes, h1]))
  · exact .noop R (by simp only [World.act, h4]) (.invalid (by simp [Seq.takes, h1]))
  · exact .noop R (by simp only [World.act, h4]) (.invalid (by simp [Seq.takes, h1]))
  · exact .noop R (by simp only [World.act, h4]) (.invalid (by simp [Seq.takes, h1]))
  · have hle := R.core.rng_le hin
    have est : SliceItemsParts.pstate (posCtx umax umax) n f c q = SliceItemsParts.pstate (posCtx umax (s.c.a.b.sk.blen r.buf)) n f c q := rfl
    by_cases hd : f + c = 2 ^ n
    · have hdone := SliceItemsParts.next_pstate_done (posCtx umax (s.c.a.b.sk.blen r.buf)) n f c q hd
      have hw : win (rparts n q) f c = [] := win_done _ (by rw [parts_length]; omega)
      have hs : s.put k m (.parts (.pstate (posCtx umax umax) n f c q)) = s := by
        have : s.tab.set k (some (m, .parts (.pstate (posCtx umax umax) n f c q))) = s.tab := Rc.set_same h2
        simp only [Seq.put, this]
      have hdoes : Seq.Does umax s (.nextPart e k) .none (s.put k m (.parts (.pstate (posCtx umax umax) n f c q))) := by
        refine .nextPartNone h1 (R.toSR0.agree k) ?_
        cases e with
        | front => simp only [Seq.partsStep]; rw [est, hdone.1]; rfl
        | back => simp only [Seq.partsStep]; rw [est, hdone.2]; rfl
      rw [hs] at hdoes
      refine .noop R (o := .none) ?_ hdoes
      simp only [World.act, h4, hw]
      cases e <;> rfl
    · have hlt : f + c < 2 ^ n := by omega
      have hib : InBuf (posCtx umax (s.c.a.b.sk.blen r.buf)) q := hle.1
      have ho := ho hlt
      simp only [restRng, if_neg hd] at hl ho
      have hm1 := cut_mono n q (f := f) (g := f + 1) (by omega)
      have hm2 := cut_mono n q (f := f + 1) (g := 2 ^ n - c) (by omega)
      have hm3 := cut_mono n q (f := f) (g := 2 ^ n - 1 - c) (by omega)
      have hm4 := cut_mono n q (f := 2 ^ n - 1 - c) (g := 2 ^ n - c) (by omega)
      have hb := cut_bounds n (f + 1) q
      have hb2 := cut_bounds n (2 ^ n - c) q
      cases e with
      | front =>
        have hget := rparts_get n f q (by omega)
        obtain ⟨c', h0, a1, a2, e1, ek, es, hh, A⟩ := cutF_ret R.reach R.quiet h3 (n := cut n (f + 1) q - cut n f q) (by omega)
        rw [ho] at A
        refine part_step R (p := ⟨cut n f q, cut n (f + 1) q - cut n f q⟩) (f' := f + 1) (c' := c)
          (r2 := ⟨r.buf, cut n f q + (cut n (f + 1) q - cut n f q), r.len - (cut n (f + 1) q - cut n f q), a2⟩)
          h1 h2 h3 h4 (by omega) q2 hin ?_ rfl ?_ ?_ ?_ ?_
          rfl e1 ek es hh A
        · simp only; omega
        · simp only [restRng]; omega
        · intro h; simp only [restRng]; rw [if_neg (by omega)]; omega
        · simp only [Seq.partsStep]
          rw [est, SliceItemsParts.next_pstate _ _ _ _ _ hib q2 hlt, hget]
          simp only [Option.map_some, enc_pos]; rfl
        · simp only [Spec.deqStep]
          rw [win_head _ (by rw [parts_length]; exact hlt), hget, win_tail]
      | back =>
        have hget := rparts_get n (2 ^ n - 1 - c) q (by omega)
        rw [show 2 ^ n - 1 - c + 1 = 2 ^ n - c by omega] at hget
        obtain ⟨c', h0, a1, a2, e1, ek, es, hh, A⟩ := cutB_ret R.reach R.quiet h3
          (n := r.len - (cut n (2 ^ n - c) q - cut n (2 ^ n - 1 - c) q)) (by omega)
        have e2 : r.len - (r.len - (cut n (2 ^ n - c) q - cut n (2 ^ n - 1 - c) q)) = cut n (2 ^ n - c) q - cut n (2 ^ n - 1 - c) q := by omega
        have e3 : r.off + (r.len - (cut n (2 ^ n - c) q - cut n (2 ^ n - 1 - c) q)) = cut n (2 ^ n - 1 - c) q := by omega
        rw [e2, e3] at A
        rw [e2] at hh
        have he : 2 ^ n - (c + 1) = 2 ^ n - 1 - c := by omega
        refine part_step R (p := ⟨cut n (2 ^ n - 1 - c) q, cut n (2 ^ n - c) q - cut n (2 ^ n - 1 - c) q⟩) (f' := f) (c' := c + 1)
          (r2 := ⟨r.buf, r.off, r.len - (cut n (2 ^ n - c) q - cut n (2 ^ n - 1 - c) q), a2⟩)
          h1 h2 h3 h4 (by omega) q2 hin ?_ rfl ?_ ?_ ?_ ?_ rfl e1 ek es hh A
        · simp only; omega
        · simp only [restRng, he]; omega
        · intro h; simp only [restRng]; rw [if_neg (by omega)]; exact ho
        · simp only [Seq.partsStep]
          rw [est, SliceItemsParts.nextBack_pstate _ _ _ _ _ hib q2 hlt, hget]
          simp only [Option.map_some, enc_pos]; rfl
        · simp only [Spec.deqStep]
          rw [win_last _ (by rw [parts_length]; exact hlt), parts_length, hget, win_dropLast]
  · exact .noop R (by simp only [World.act, h4]) (.invalid (by simp [Seq.takes, h1]))
  · exact .noop R (by simp only [World.act, h4]) (.invalid (by simp [Seq.takes, h1]))

/-! ### Exclusive access -/

/-- Exclusive access is granted if there is no other handle on the way up or down. -/
theorem lone_spec (R : SR P umax zst s w) {d g f : Nat} {p : List Side} (hk : s.tab[k]?.join = some (m, it))
    (hm : s.c.get m = some ⟨.strong d g, false⟩) (hl : s.c.a.b.sk.lab d = ⟨f, p⟩) :
    Lone s.c.a d g ↔ w.otherHand k (World.sharedConflict f p) = false := by
  rw [Lone, lone_iff (R.reach.BI Solo.tame) (R.reach.GFI Solo.tame) R.quiet hm, Bool.eq_false_iff, ne_eq]
  unfold World.otherHand World.anyHand
  rw [show (w.del k).hs = w.hs.set k none from rfl, ← (R.tab.del hk).any
    (Q := fun e => ∃ d' g', e.h = .strong d' g' ∧ ((Lab.mk f p).up (s.c.a.b.sk.lab d') ∨ (s.c.a.b.sk.lab d').up ⟨f, p⟩))]
  · rw [hl]
    constructor
    · rintro h ⟨m', ⟨hh, b⟩, h1, d', g', h2, h3⟩
      cases h2
      simp only [upd] at h1
      split at h1
      · cases h1
      · next hne => exact h m' d' g' b h1 hne h3
    · intro h m' d' g' b h1 hne h3
      exact h ⟨m', _, by rw [upd_ne _ _ hne]; exact h1, d', g', rfl, h3⟩
  · intro m' e it y _ hr
    cases hr with
    | shared d i b f' p' hl =>
      simp only [World.sharedConflict, Bool.and_or_distrib_left, Bool.or_eq_true]
      rw [above_iff, above_iff', ← hl]
      constructor
      · rintro ⟨d', i', e, h⟩; cases e; exact h
      · intro h; exact ⟨d, i, rfl, h⟩
    | _ => simp [World.sharedConflict]

theorem weak_spec (R : SR P umax zst s w) {d g f : Nat} {p : List Side} (hk : s.tab[k]?.join = some (m, it))
    (hm : s.c.get m = some ⟨.strong d g, false⟩) (hl : s.c.a.b.sk.lab d = ⟨f, p⟩) (hn : w.otherHand k (World.weakHere f p) = false) :
    s.c.a.gW g = 1 := by
  refine weak_one R.reach R.quiet hm fun m' g' b h => ?_
  rw [Bool.eq_false_iff] at hn
  apply hn
  unfold World.otherHand World.anyHand
  rw [show (w.del k).hs = w.hs.set k none from rfl, ← (R.tab.del hk).any
    (Q := fun e => ∃ d' g', e.h = .weak (some d') g' ∧ s.c.a.b.sk.lab d' = ⟨f, p⟩)]
  · refine ⟨m', ⟨.weak (some d) g', b⟩, ?_, d, g', rfl, hl⟩
    rw [upd_ne]
    · exact h
    · rintro rfl; rw [hm] at h; cases h
  · intro m' e it y _ hr
    cases hr with
    | weak d' g' b f' p' hl' =>
      simp only [World.weakHere, Bool.and_eq_true, beq_iff_eq]
      constructor
      · rintro ⟨d2, g2, e, h⟩; cases e; rw [hl'] at h; cases h; exact ⟨rfl, rfl⟩
      · rintro ⟨rfl, rfl⟩; exact ⟨d', g', rfl, hl'⟩
    | _ => simp [World.weakHere]

theorem weakHere_conflict {f : Nat} {p : List Side} (h : w.otherHand k (World.weakConflict f p) = false) :
    w.otherHand k (World.weakHere f p) = false := by
  rw [Bool.eq_false_iff] at h ⊢
  intro h1
  apply h
  simp only [World.otherHand, World.anyHand, List.any_eq_true] at h1 ⊢
  obtain ⟨o, ho, h2⟩ := h1
  refine ⟨o, ho, ?_⟩
  cases o with
  | none => cases h2
  | some y =>
    simp only [Option.any_some] at h2 ⊢
    cases y <;> simp only [World.weakHere, Bool.false_eq_true] at h2
    simp only [Bool.and_eq_true, beq_iff_eq] at h2
    obtain ⟨rfl, rfl⟩ := h2
    simp [World.weakConflict, World.above]

theorem sim_intoMut (R : SR P umax zst s w) (k : Nat) : Sim P umax zst s w (.intoMut k) := by
  rcases R.cases k with ⟨h1, h2⟩ | ⟨m, d, g, f, p, h1, h2, h3, h4, h5⟩ | ⟨m, r, h1, h2, h3, h4, h5⟩ | ⟨m, r, h1, h2, h3, h4, h5⟩ |
    ⟨m, r, n, f, c, q, h1, h2, h3, h4, q1, q2, hin, hl, ho⟩ | ⟨m, d, g, f, p, h1, h2, h3, h4, h5⟩ | ⟨m, h1, h2, h3, h4⟩
  · exact .noop R (by simp only [World.act, h2]) (.invalid (by simp [Seq.takes, h1]))
  · have B := R.reach.BI Solo.tame
    obtain ⟨v, hd⟩ := data_of_strong B h3
    obtain ⟨r1, r2, r3, r4⟩ := data_rng B.heap R.core hd h5
    have sp := lone_spec R h2 h3 h5
    by_cases hl : Lone s.c.a d g
    · obtain ⟨c', e1, A⟩ := intoMut_yes R.reach R.quiet h3 hl hd
      refine .of (w' := w.put k (.uniq v.buf ⟨v.off, v.len⟩ v.alloc.isSome)) ?_ (.intoMut h1 e1)
        (R.replaced (.refl _) A R.core R.memz rfl h2 (.uniq ⟨v.buf, v.off, v.len, v.alloc⟩ false (A.keep.rngIn r4)) rfl)
      simp only [World.act, h4, sp.1 hl, r1, r2, r3, Bool.false_eq_true, if_false]
    · obtain ⟨c', e1, A⟩ := intoMut_no R.reach R.quiet h3 hl
      have hn : w.otherHand k (World.sharedConflict f p) = true := by
        rw [← Bool.not_eq_false]; exact fun h => hl (sp.2 h)
      refine .of (w' := w.put k (.shared f p)) ?_ (.intoMutNo h1 e1)
        (R.replaced (.refl _) A R.core R.memz rfl h2 (.shared d g false f p (by
          rw [A.lab d (B.heap.lt (ref_mem_aS (Conf.get_tok' h3 (t := .ref d) (by simp [entT]))))]; exact h5)) rfl)
      simp only [World.act, h4, hn, if_true, put_same h4]
  · exact .noop R (by simp only [World.act, h4]) (.invalid (by simp [Seq.takes, h1]))
  · exact .noop R (by simp only [World.act, h4]) (.invalid (by simp [Seq.takes, h1]))
  · exact .noop R (by simp only [World.act, h4]) (.invalid (by simp [Seq.takes, h1]))
  · exact .noop R (by simp only [World.act, h4]) (.invalid (by simp [Seq.takes, h1]))
  · exact .noop R (by simp only [World.act, h4]) (.invalid (by simp [Seq.takes, h1]))

/-- The mutable borrow ends. -/
theorem SR0.ended (R : SR0 P umax zst s w) {d g : Nat} (hm : s.c.get m = some ⟨.strong d g, true⟩)
    (hnm : ∀ m' e, s.c.get m' = some e → m' ≠ m → e.mutb = false) :
    ∃ c', s.c.start (.endMut m) = some c' ∧ SR P umax zst (s.to c') w := by
  have e : s.c.start (.endMut m) = some { s.c with hs := s.c.hs.set m (some ⟨.strong d g, false⟩) } := by
    simp only [Conf.start, hm]
  have hg : (Conf.get { s.c with hs := s.c.hs.set m (some ⟨.strong d g, false⟩) }) = upd s.c.get m (some ⟨.strong d g, false⟩) := by
    funext x
    simp only [Conf.get, upd]; exact join_set _ _ _ _ (join_lt hm)
  refine ⟨_, e, ⟨.start (op := .endMut m) R.reach (Solo.quiet _ _ R.quiet) e, R.quiet, R.core, ?_⟩, ?_⟩
  · show TabR umax (Conf.get { s.c with hs := s.c.hs.set m (some ⟨.strong d g, false⟩) }) _ _ _
    rw [hg]
    refine ⟨R.tab.len, fun j => ?_, R.tab.inj, fun m' e' h => ?_⟩
    · rcases R.tab.at_ j with h | ⟨m', it, y, e', h1, h2, h3, h4⟩
      · exact .inl h
      · by_cases hne : m' = m
        · subst hne
          rw [hm] at h3; cases h3
          refine .inr ⟨m', it, y, _, h1, h2, upd_same _ _ _, ?_⟩
          cases h4 with
          | shared d g b f p hl => exact .shared d g _ f p hl
        · exact .inr ⟨m', it, y, e', h1, h2, by rw [upd_ne _ _ hne]; exact h3, h4⟩
    · by_cases hne : m' = m
      · subst hne; exact R.tab.onto m' _ hm
      · rw [upd_ne _ _ hne] at h; exact R.tab.onto m' e' h
  · intro m' e' h
    have h : Conf.get _ m' = some e' := h
    simp only [Seq.to] at h
    rw [hg] at h
    by_cases hne : m' = m
    · subst hne; rw [upd_same] at h; cases h; rfl
    · rw [upd_ne _ _ hne] at h; exact hnm m' e' h hne

/-- `get_mut`, whether or not there are `WeakSlice`s. -/
theorem getMut_either (R : SR P umax zst s w) (k j : Nat) (x : α) {d g f : Nat} {p : List Side} (h1 : s.at' k = some (.slice m d g))
    (h2 : s.tab[k]?.join = some (m, .plain)) (h3 : s.c.get m = some ⟨.strong d g, false⟩) (h4 : w.get k = some (.shared f p))
    (h5 : s.c.a.b.sk.lab d = ⟨f, p⟩) :
    (w.otherHand k (World.sharedConflict f p) = false ∧
      ∃ s', Seq.Does umax s (.getMut k j x) .done s' ∧ SR P umax zst s' (w.wrote f p j x).settle) ∨
    ((w.otherHand k (World.sharedConflict f p) = true ∨ w.otherHand k (World.weakHere f p) = true) ∧
      ∃ s', Seq.Does umax s (.getMut k j x) .none s' ∧ SR P umax zst s' w) := by
  have B := R.reach.BI Solo.tame
  have hml : m < s.c.hs.length := join_lt h3
  have hd0 := B.heap.lt (ref_mem_aS (Conf.get_tok' h3 (t := .ref d) (by simp [entT])))
  have sp := lone_spec R h2 h3 h5
  obtain ⟨ok, c1, hok, e1, A⟩ := getMut_ret R.reach R.quiet h3
  cases ok with
  | false =>
    refine .inr ⟨?_, _, .getMutNo h1 e1, ?_⟩
    · cases q1 : w.otherHand k (World.sharedConflict f p) with
      | true => exact .inl rfl
      | false =>
        cases q2 : w.otherHand k (World.weakHere f p) with
        | true => exact .inr rfl
        | false => exact absurd (hok.2 ⟨weak_spec R h2 h3 h5 q2, sp.2 q1⟩) (by simp)
    · have := R.replaced (.refl _) A R.core R.memz rfl h2 (.shared d g false f p (by rw [A.lab d hd0]; exact h5)) rfl
      rw [put_same h4, R.settled] at this
      exact this
  | true =>
    refine .inl ⟨sp.1 (hok.1 rfl).2, ?_⟩
    have hr : ER umax c1.a.b.sk ⟨.strong d g, true⟩ .plain (.shared f p) := .shared d g true f p (by rw [A.lab d hd0]; exact h5)
    obtain ⟨R1, hg⟩ := R.toSR0.replaced (.refl _) A R.core R.memz rfl h2 hr
    rw [put_same h4, R.settled] at R1
    have g1 : c1.get s.c.hs.length = some ⟨.strong d g, true⟩ := by rw [hg]; exact upd_same _ _ _
    have nm1 : ∀ m' e', c1.get m' = some e' → m' ≠ s.c.hs.length → e'.mutb = false := by
      intro m' e' h hne
      rw [hg, upd_ne _ _ hne] at h
      simp only [upd] at h
      split at h
      · cases h
      · exact R.nomut m' e' h
    simp only [World.wrote]
    by_cases hj : j < (w.rangeOf f p).len
    · obtain ⟨c2, e2, e2h, R2⟩ := R1.written (s := (s.to c1).put k s.c.hs.length) g1 rfl hr rfl hj x
      have g2 : c2.get = c1.get := by funext y; simp only [Conf.get, e2h]; rfl
      obtain ⟨c3, e3, R3⟩ := R2.ended (m := s.c.hs.length) (d := d) (g := g) (by show c2.get _ = _; rw [g2]; exact g1)
        (fun m' e' h => nm1 m' e' (by rw [← g2]; exact h))
      refine ⟨_, .getMut h1 e1 g1 e2 e3, ?_⟩
      rw [if_pos hj, R3.settled]; exact R3
    · obtain ⟨b, r, r', a1, ⟨a2, a3⟩, _⟩ := shows_ok R1 g1 hr rfl
      have e2 : c1.write ⟨.strong d g, true⟩ j x = .ok c1 := by
        have : r.len = (w.rangeOf f p).len := by
          simp only [World.view] at a2; cases a2
          rcases a3 with h | ⟨h, h'⟩
          · rw [h]
          · rw [h, h']
        have a1' : Conf.range c1.a (.strong d g) = .ok (some (b, r.off, r.len)) := a1
        simp only [Conf.write, a1', bind, Except.bind]
        rw [if_neg (by rw [this]; exact hj)]; rfl
      obtain ⟨c3, e3, R3⟩ := R1.ended g1 nm1
      refine ⟨_, .getMut h1 e1 g1 e2 e3, ?_⟩
      rw [if_neg hj, R3.settled]; exact R3

theorem sim_getMut (R : SR P umax zst s w) (k j : Nat) (x : α) (hp : w.Mild (.getMut k j x)) : Sim P umax zst s w (.getMut k j x) := by
  rcases R.cases k with ⟨h1, h2⟩ | ⟨m, d, g, f, p, h1, h2, h3, h4, h5⟩ | ⟨m, r, h1, h2, h3, h4, h5⟩ | ⟨m, r, h1, h2, h3, h4, h5⟩ |
    ⟨m, r, n, f, c, q, h1, h2, h3, h4, q1, q2, hin, hl, ho⟩ | ⟨m, d, g, f, p, h1, h2, h3, h4, h5⟩ | ⟨m, h1, h2, h3, h4⟩
  · exact .noop R (by simp only [World.act, h2]) (.invalid (by simp [Seq.takes, h1]))
  · rcases getMut_either R k j x h1 h2 h3 h4 h5 with ⟨hn, s', e, R'⟩ | ⟨hn, s', e, R'⟩
    · have wk : w.otherHand k (World.weakConflict f p) = false := by
        rw [Bool.eq_false_iff]
        intro h
        rw [hp f p h4 h] at hn; cases hn
      refine .of ?_ e R'
      simp only [World.act, h4, hn, wk, Bool.or_self, Bool.false_eq_true, if_false, World.wrote]
      split <;> rfl
    · have hn : (w.otherHand k (World.sharedConflict f p) || w.otherHand k (World.weakConflict f p)) = true := by
        rcases hn with h | h
        · rw [h]; rfl
        · cases q : w.otherHand k (World.weakConflict f p) with
          | true => rw [Bool.or_true]
          | false => rw [weakHere_conflict q] at h; cases h
      refine .of (w' := w) ?_ e (by rw [R.settled]; exact R')
      simp only [World.act, h4, hn, if_true]
  · exact .noop R (by simp only [World.act, h4]) (.invalid (by simp [Seq.takes, h1]))
  · exact .noop R (by simp only [World.act, h4]) (.invalid (by simp [Seq.takes, h1]))
  · exact .noop R (by simp only [World.act, h4]) (.invalid (by simp [Seq.takes, h1]))
  · exact .noop R (by simp only [World.act, h4]) (.invalid (by simp [Seq.takes, h1]))
  · exact .noop R (by simp only [World.act, h4]) (.invalid (by simp [Seq.takes, h1]))

theorem sim_downgrade (R : SR P umax zst s w) (k : Nat) : Sim P umax zst s w (.downgrade k) := by
  rcases R.cases k with ⟨h1, h2⟩ | ⟨m, d, g, f, p, h1, h2, h3, h4, h5⟩ | ⟨m, r, h1, h2, h3, h4, h5⟩ | ⟨m, r, h1, h2, h3, h4, h5⟩ |
    ⟨m, r, n, f, c, q, h1, h2, h3, h4, q1, q2, hin, hl, ho⟩ | ⟨m, d, g, f, p, h1, h2, h3, h4, h5⟩ | ⟨m, h1, h2, h3, h4⟩
  · exact .noop R (by simp only [World.act, h2]) (.invalid (by simp [Seq.takes, h1]))
  · obtain ⟨c', e1, A⟩ := downgrade_ret R.reach R.quiet h3
    have hd := (R.reach.BI Solo.tame).heap.lt (ref_mem_aS (Conf.get_tok' h3 (t := .ref d) (by simp [entT])))
    exact .of (by simp only [World.act, h4]) (.downgrade h1 e1)
      (R.pushed (.refl _) A R.core R.memz rfl (.weak d (some g) false f p (by rw [A.lab d hd, h5])) rfl)
  · exact .noop R (by simp only [World.act, h4]) (.invalid (by simp [Seq.takes, h1]))
  · exact .noop R (by simp only [World.act, h4]) (.invalid (by simp [Seq.takes, h1]))
  · exact .noop R (by simp only [World.act, h4]) (.invalid (by simp [Seq.takes, h1]))
  · exact .noop R (by simp only [World.act, h4]) (.invalid (by simp [Seq.takes, h1]))
  · exact .noop R (by simp only [World.act, h4]) (.invalid (by simp [Seq.takes, h1]))

theorem alive_spec (R : SR P umax zst s w) {d : Nat} {g : Option Nat} {f : Nat} {p : List Side} (hm : s.c.get m = some ⟨.weak (some d) g, false⟩)
    (hl : s.c.a.b.sk.lab d = ⟨f, p⟩) : s.c.a.b.strong d ≠ 0 ↔ w.anyHand (World.sharedAbove f p) = true := by
  obtain ⟨h1, h2⟩ := (R.reach.BI Solo.tame).ents m _ hm d rfl
  rw [alive_iff Solo.tame R.reach R.quiet h1 h2, hl]
  unfold World.anyHand
  rw [← R.tab.any (Q := fun e => ∃ y g, e.h = .strong y g ∧ (s.c.a.b.sk.lab y).up ⟨f, p⟩)]
  · constructor
    · rintro ⟨m, y, g, b, h1, h2⟩; exact ⟨m, _, h1, y, g, rfl, h2⟩
    · rintro ⟨m, ⟨h, b⟩, h1, y, g, h2, h3⟩; cases h2; exact ⟨m, y, g, b, h1, h3⟩
  · intro m' e it y _ hr
    cases hr with
    | shared d' g' b f' p' hl' =>
      simp only [World.sharedAbove, above_iff', ← hl']
      constructor
      · rintro ⟨d2, g2, e, h⟩; cases e; exact h
      · intro h; exact ⟨d', g', rfl, h⟩
    | _ => simp [World.sharedAbove]

/-- Nothing but a call has happened. -/
theorem SR.idle (R : SR P umax zst s w) (A : After P zst s.c.a.b s.c.hs [] c') : SR P umax zst (s.to c') w.settle := by
  have hg : c'.get = s.c.get := by
    funext x; simp only [Conf.get, A.hs]; simp
  refine ⟨SR0.finish A R.core R.memz ?_, fun m' e' h => R.nomut m' e' ?_⟩
  · show TabR umax c'.get _ _ _
    rw [hg]; exact R.grown (.refl _) A
  · rw [← hg]; exact h

theorem sim_upgrade (R : SR P umax zst s w) (k : Nat) : Sim P umax zst s w (.upgrade k) := by
  rcases R.cases k with ⟨h1, h2⟩ | ⟨m, d, g, f, p, h1, h2, h3, h4, h5⟩ | ⟨m, r, h1, h2, h3, h4, h5⟩ | ⟨m, r, h1, h2, h3, h4, h5⟩ |
    ⟨m, r, n, f, c, q, h1, h2, h3, h4, q1, q2, hin, hl, ho⟩ | ⟨m, d, g, f, p, h1, h2, h3, h4, h5⟩ | ⟨m, h1, h2, h3, h4⟩
  · exact .noop R (by simp only [World.act, h2]) (.invalid (by simp [Seq.takes, h1]))
  · exact .noop R (by simp only [World.act, h4]) (.invalid (by simp [Seq.takes, h1]))
  · exact .noop R (by simp only [World.act, h4]) (.invalid (by simp [Seq.takes, h1]))
  · exact .noop R (by simp only [World.act, h4]) (.invalid (by simp [Seq.takes, h1]))
  · exact .noop R (by simp only [World.act, h4]) (.invalid (by simp [Seq.takes, h1]))
  · have sp := alive_spec R h3 h5
    by_cases hs : s.c.a.b.strong d = 0
    · obtain ⟨c', e1, A⟩ := upgrade_no R.reach R.quiet h3 (fun x h => by cases h; exact hs)
      refine .of ?_ (.upgradeNo h1 e1) (R.idle A)
      have hn : w.anyHand (World.sharedAbove f p) = false := by
        rw [Bool.eq_false_iff]; exact fun h => sp.2 h hs
      simp only [World.act, h4, hn, Bool.false_eq_true, if_false]
    · obtain ⟨c', d', g', e1, A, e2⟩ := upgrade_yes R.reach R.quiet h3 hs
      refine .of ?_ (.upgrade h1 e1) (R.pushed (.refl _) A R.core R.memz rfl (.shared d' g' false f p (by rw [e2, h5])) rfl)
      simp only [World.act, h4, sp.1 hs, if_true]
  · obtain ⟨c', e1, A⟩ := upgrade_no R.reach R.quiet h3 (fun x h => by cases h)
    exact .of (by simp only [World.act, h4]) (.upgradeNo h1 e1) (R.idle A)

theorem sim_weakNew (R : SR P umax zst s w) : Sim P umax zst s w .weakNew := by
  have e : s.c.start .weakNew = some { s.c with hs := s.c.hs ++ [some ⟨.weak none none, false⟩] } := rfl
  have A : After P zst s.c.a.b s.c.hs [⟨.weak none none, false⟩] { s.c with hs := s.c.hs ++ [some ⟨.weak none none, false⟩] } :=
    ⟨.start R.reach .weakNew (Solo.quiet _ _ R.quiet) e, R.quiet, .refl _, Nat.le_refl _, fun _ _ => rfl, rfl⟩
  exact .of0 rfl (.weakNew e) (R.pushed (.refl _) A R.core R.memz rfl (.weakNone false) rfl)

theorem does_sim (R : SR P umax zst s w) (hp : w.Mild op) : Sim P umax zst s w op := by
  cases op with
  | rcNew xs => exact sim_rcNew R xs
  | mutNew xs => exact sim_mutNew R xs
  | clone k => exact sim_clone R k
  | cloneSide sd k => exact sim_cloneSide R sd k
  | splitOff sd k => exact sim_splitOff R sd k
  | getMut k j x => exact sim_getMut R k j x hp
  | weakNew => exact sim_weakNew R
  | downgrade k => exact sim_downgrade R k
  | upgrade k => exact sim_upgrade R k
  | write k j x => exact sim_write R k j x
  | read k => exact sim_read R k
  | intoMut k => exact sim_intoMut R k
  | intoImmut k => exact sim_intoImmut R k
  | drop k => exact sim_drop R k
  | intoIter k => exact sim_intoIter R k
  | next e k => exact sim_next R e k
  | splitOffFrom k n => exact sim_splitOffFrom R k n
  | splitOffTo k n => exact sim_splitOffTo R k n
  | intoParts k n => exact sim_intoParts R k n
  | nextPart e k => exact sim_nextPart R e k

omit [Solo P] in
theorem SR.init (umax : Nat) (zst : Bool) : SR P umax zst (Seq.init zst : Seq α) (World.empty zst) := by
  refine ⟨⟨.init, ?_, ?_, ?_⟩, ?_⟩
  · intro cl h; cases h
  · exact (Rel.init umax zst).core
  · refine ⟨rfl, fun j => .inl ⟨rfl, rfl⟩, ?_, ?_⟩
    · intro j j' m it it' h; cases h
    · intro m e h; cases h
  · intro m e h; cases h

/-- `World.ArcCall`, but `weakNew` does not use up the number of a family. -/
inductive ArcCall0 (umax : Nat) (w : World α) : Spec.Op α → Obs α → World α → Prop
  | same {op : Spec.Op α} (h : w.Mild op) : ArcCall0 umax w op (call0 umax w op).2 (call0 umax w op).1
  | granted {k j x f p} (hk : w.get k = some (.shared f p)) (hs : w.otherHand k (World.sharedConflict f p) = false) :
    ArcCall0 umax w (.getMut k j x) .done (w.wrote f p j x).settle
  | refused {k j x f p} (hk : w.get k = some (.shared f p)) (hw : w.otherHand k (World.weakHere f p) = true) :
    ArcCall0 umax w (.getMut k j x) .none w.settle

theorem does_any (R : SR P umax zst s w) (op : Spec.Op α) :
    ∃ o s' w', Seq.Does umax s op o s' ∧ ArcCall0 umax w op o w' ∧ SR P umax zst s' w' := by
  by_cases hp : w.Mild op
  · obtain ⟨s', h1, h2⟩ := does_sim R hp
    exact ⟨_, s', _, h1, .same hp, h2⟩
  · cases op with
    | getMut k j x =>
      simp only [World.Mild, Classical.not_forall, Bool.not_eq_true] at hp
      obtain ⟨f, p, hk, hw, hs⟩ := hp
      rcases R.cases k with ⟨h1, h2⟩ | ⟨m, d, g, f, p, h1, h2, h3, h4, h5⟩ | ⟨m, r, h1, h2, h3, h4, h5⟩ | ⟨m, r, h1, h2, h3, h4, h5⟩ |
        ⟨m, r, n, f, c, q, h1, h2, h3, h4, q1, q2, hin, hl, ho⟩ | ⟨m, d, g, f, p, h1, h2, h3, h4, h5⟩ | ⟨m, h1, h2, h3, h4⟩
      · rw [h2] at hk; cases hk
      · rw [h4] at hk; cases hk
        rcases getMut_either R k j x h1 h2 h3 h4 h5 with ⟨hn, s', e, R'⟩ | ⟨hn, s', e, R'⟩
        · exact ⟨_, s', _, e, .granted h4 hn, R'⟩
        · rw [hs] at hn
          exact ⟨_, s', _, e, .refused h4 (hn.resolve_left (by simp)), by rw [R.settled]; exact R'⟩
      all_goals rw [h4] at hk; cases hk
    | _ => exact absurd trivial hp

end
end Verif.Arc
