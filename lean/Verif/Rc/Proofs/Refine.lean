import Verif.Rc.Proofs.SimParts
/-!
# Histories of calls

The drops a call causes leave exactly the items that some handle covers and the memory that
some handle keeps.
-/

namespace Verif.Rc
open Verif.Spec (Side Slot Family Rng Hand World Op Obs End)
variable {α : Type}

/-- The handle covers the item. -/
def Tok.cov (k : Skel) (b i : Nat) : Tok → Prop
  | .strong d _ => ∃ v, k.node d = some (.data v) ∧ v.buf = b ∧ v.off ≤ i ∧ i < v.off + v.len
  | .reg r => r.buf = b ∧ r.off ≤ i ∧ i < r.off + r.len
  | _ => False

/-- The handle keeps the memory. -/
def Tok.hold (k : Skel) (b : Nat) : Tok → Prop
  | .strong d _ => ∃ v, k.node d = some (.data v) ∧ v.buf = b ∧ v.alloc.isSome = true
  | .reg r => r.buf = b ∧ r.alloc.isSome = true
  | _ => False

theorem has_iff {r : Rng} {i : Nat} : r.has i = true ↔ r.off ≤ i ∧ i < r.off + r.len := by
  simp [Rng.has]

section
variable {umax : Nat} {s : State α} {w : World α} {T : List Tok}

theorem cov_iff (R : Rel umax s w T) (b i : Nat) :
    (∃ t ∈ tabToks umax s.hs, t.cov s.h.sk b i) ↔ w.anyHand (w.covers b i) = true := by
  rw [World.anyHand, ← R.tab.any (Q := fun x => (x.tok umax).cov s.h.sk b i)]
  · constructor
    · rintro ⟨t, ht, hc⟩
      obtain ⟨k, x, hk, rfl⟩ := mem_tabToks.1 ht
      exact ⟨k, x, hk, hc⟩
    · rintro ⟨k, x, hk, hc⟩
      exact ⟨_, mem_tabToks.2 ⟨k, x, hk, rfl⟩, hc⟩
  · intro j x y hj hr
    cases hr with
    | shared d i' f p hl =>
      obtain ⟨v, _, hd, _⟩ := R.inv.strong_live (R.tok_mem hj)
      obtain ⟨e1, e2, _⟩ := R.data_rng hd hl
      simp only [Handle.tok, Tok.cov, World.covers, e1, e2, hd, Option.some.injEq, Node.data.injEq, exists_eq_left',
        Bool.and_eq_true, beq_iff_eq, has_iff]
    | weak d g f p hl => simp [Handle.tok, Tok.cov, World.covers]
    | weakNone g => simp [Handle.tok, Tok.cov, World.covers]
    | uniq r hin => simp only [Handle.tok, Tok.cov, World.covers, Bool.and_eq_true, beq_iff_eq, has_iff]
    | iter r hin => simp only [Handle.tok, Tok.cov, World.covers, Bool.and_eq_true, beq_iff_eq, has_iff]
    | parts b' a m f c r h1 h2 h3 =>
      rw [tok_parts (R.core.rng_le h3).2 h1]
      simp only [Tok.cov, World.covers, Bool.and_eq_true, beq_iff_eq]
      rw [win_has h1, has_iff]

theorem hold_iff (R : Rel umax s w T) (b : Nat) :
    (∃ t ∈ tabToks umax s.hs, t.hold s.h.sk b) ↔ w.anyHand (w.keeps b) = true := by
  rw [World.anyHand, ← R.tab.any (Q := fun x => (x.tok umax).hold s.h.sk b)]
  · constructor
    · rintro ⟨t, ht, hc⟩
      obtain ⟨k, x, hk, rfl⟩ := mem_tabToks.1 ht
      exact ⟨k, x, hk, hc⟩
    · rintro ⟨k, x, hk, hc⟩
      exact ⟨_, mem_tabToks.2 ⟨k, x, hk, rfl⟩, hc⟩
  · intro j x y hj hr
    cases hr with
    | shared d i' f p hl =>
      obtain ⟨v, _, hd, _⟩ := R.inv.strong_live (R.tok_mem hj)
      obtain ⟨e1, _, e3, _⟩ := R.data_rng hd hl
      simp only [Handle.tok, Tok.hold, World.keeps, e1, e3, hd, Option.some.injEq, Node.data.injEq, exists_eq_left',
        Bool.and_eq_true, beq_iff_eq]
    | weak d g f p hl => simp [Handle.tok, Tok.hold, World.keeps]
    | weakNone g => simp [Handle.tok, Tok.hold, World.keeps]
    | uniq r hin => simp only [Handle.tok, Tok.hold, World.keeps, Bool.and_eq_true, beq_iff_eq]
    | iter r hin => simp only [Handle.tok, Tok.hold, World.keeps, Bool.and_eq_true, beq_iff_eq]
    | parts b' a m f c r h1 h2 h3 =>
      rw [tok_parts (R.core.rng_le h3).2 h1]
      simp only [Tok.hold, World.keeps, Bool.and_eq_true, beq_iff_eq]

/-- A covered item is there. -/
theorem Inv.cov_live {h : Heap α} (I : Inv h T) {t : Tok} (ht : t ∈ T) {b i : Nat} (hc : t.cov h.sk b i) :
    ∃ a, h.slot b i = .live a := by
  cases t with
  | strong d j =>
    obtain ⟨v, hd, rfl, h1, h2⟩ := hc
    exact I.good.data_items hd h1 h2
  | reg r =>
    obtain ⟨rfl, h1, h2⟩ := hc
    exact I.reg_live ht h1 h2
  | weak d g => exact hc.elim
  | loose x => exact hc.elim

/-- The memory of an item that is there is allocated. -/
theorem Inv.live_mem {h : Heap α} (I : Inv h T) {b i : Nat} {a : α} (hs : h.slot b i = .live a) (hz : h.sk.zst = false) :
    h.sk.mem b = true := by
  have : h.accessible b = true := by
    rcases I.item_held hs with ⟨x, v, hx, rfl, h1, h2⟩ | ⟨r, hr, rfl, h1, h2⟩
    · exact I.good.data_accessible hx (by omega)
    · exact I.reg_accessible hr (by omega)
  simpa [Heap.accessible, hz] using this

/-- Kept memory is allocated. -/
theorem Inv.hold_mem {h : Heap α} (I : Inv h T) {t : Tok} (ht : t ∈ T) {b : Nat} (hc : t.hold h.sk b) (hz : h.sk.zst = false) :
    h.sk.mem b = true := by
  cases t with
  | strong d j =>
    obtain ⟨v, hd, rfl, h1⟩ := hc
    obtain ⟨a, ha⟩ := Option.isSome_iff_exists.1 h1
    exact I.good.shape.allocMem a _ (I.good.shape.dataAlloc d v a hd ha) hz
  | reg r =>
    obtain ⟨rfl, h1⟩ := hc
    obtain ⟨a, ha⟩ := Option.isSome_iff_exists.1 h1
    exact I.good.shape.allocMem a _ ((I.toks _ ht).1 a ha) hz
  | weak d g => exact hc.elim
  | loose x => exact hc.elim

/-- Without pending drops, every item that is there is covered by a handle. -/
theorem Inv.live_cov {h : Heap α} (I : Inv h T) (hq : Quiet T) {b i : Nat} {a : α} (hs : h.slot b i = .live a) :
    ∃ t ∈ T, t.cov h.sk b i := by
  rcases I.item_held hs with ⟨x, v, hx, rfl, h1, h2⟩ | ⟨r, hr, rfl, h1, h2⟩
  · rcases I.data_held x hx with ⟨d, j, hd, hu⟩ | ⟨y, _, hy, _⟩
    · obtain ⟨u, _, hu', _⟩ := I.strong_live hd
      have := I.good.shape.data_inside hu' hx hu
      exact ⟨_, hd, u, hu', this.1.symm, by omega, by omega⟩
    · exact absurd hy (hq y)
  · exact ⟨_, hr, rfl, h1, h2⟩

/-- Without pending drops, all memory is kept by a handle. -/
theorem Inv.mem_hold {h : Heap α} (I : Inv h T) (hq : Quiet T) {b : Nat} (hm : h.sk.mem b = true) :
    ∃ t ∈ T, t.hold h.sk b := by
  obtain ⟨a, ha, ⟨x, v, hx, h1, rfl⟩ | ⟨r, hr, h1, rfl⟩ | hl⟩ := I.mem_held hm
  · rcases I.data_held x hx with ⟨d, j, hd, hu⟩ | ⟨y, _, hy, _⟩
    · obtain ⟨u, _, hu', _⟩ := I.strong_live hd
      have := I.good.shape.data_inside hu' hx hu
      exact ⟨_, hd, u, hu', this.1.symm, this.2.2.2 (by rw [h1]; rfl)⟩
    · exact absurd hy (hq y)
  · exact ⟨_, hr, rfl, by rw [h1]; rfl⟩
  · exact absurd hl (hq a)

/-- The world after something was dropped. -/
def World.shrunk (w : World α) (h : Heap α) : World α := { w with items := h.slot, mem := h.sk.mem }

theorem Rel.shrink (R : Rel umax s w T) {h' : Heap α} {T' : List Tok} (I : Inv h' (tabToks umax s.hs ++ T')) (p : Shrink s.h h') :
    Rel umax { s with h := h' } (World.shrunk w h') T' := by
  refine R.keep I p.grow ?_ rfl
  have c := R.core
  refine ⟨?_, ?_, rfl, rfl, ?_, ?_, ?_, ?_⟩
  · rw [p.zst]; exact c.zst
  · rw [p.nbuf]; exact c.nbuf
  · rw [p.nfam]; exact c.nfam
  · rw [p.nfam, p.fams]; exact c.fams
  · rw [p.nfam, p.fams]; exact fun f hf => (c.famIn f hf).grow p.grow
  · rw [p.blen]; exact c.blen

/-- Drops only affect what no handle needs. -/
theorem Rel.sweep (R : Rel umax s w T) {h' : Heap α} {T' : List Tok} (I : Inv h' (tabToks umax s.hs ++ T')) (p : Shrink s.h h') :
    w.Sweep (World.shrunk w h') := by
  have R' := R.shrink I p
  refine ⟨rfl, fun b i => ?_, fun b => ?_⟩
  · rw [R.core.items]
    rcases p.slot b i with e | ⟨e1, e2⟩
    · exact .inl e
    · refine .inr ⟨e1, e2, ?_⟩
      rw [← Bool.not_eq_true]
      intro hc
      obtain ⟨t, ht, hc⟩ := (cov_iff R' b i).2 hc
      obtain ⟨a, ha⟩ := I.cov_live (List.mem_append_left _ ht) hc
      rw [e2] at ha; cases ha
  · rw [R.core.mem]
    cases e1 : h'.sk.mem b with
    | true => exact .inl (by rw [p.mem b e1]; exact e1)
    | false =>
      cases e2 : s.h.sk.mem b with
      | false => exact .inl e1
      | true =>
        have hz : h'.sk.zst = false := by
          rw [p.zst]
          rw [← Bool.not_eq_true]
          intro hz
          rw [R.inv.good.shape.memZst hz b] at e2; cases e2
        refine .inr ⟨rfl, e1, ?_, fun i a ha => ?_⟩
        · rw [← Bool.not_eq_true]
          intro hc
          obtain ⟨t, ht, hc⟩ := (hold_iff R' b).2 hc
          rw [I.hold_mem (List.mem_append_left _ ht) hc hz] at e1; cases e1
        · rw [I.live_mem ha hz] at e1; cases e1

/-- When all drops are done, exactly what handles need is left. -/
theorem Rel.settle (R : Rel umax s w T) {h' : Heap α} (I : Inv h' (tabToks umax s.hs)) (p : Shrink s.h h') :
    World.shrunk w h' = w.settle := by
  have I' : Inv h' (tabToks umax s.hs ++ []) := by rwa [List.append_nil]
  have R' := R.shrink I' p
  have W := R.sweep I' p
  have hq := tabToks_quiet umax s.hs
  have e1 : (World.shrunk w h').items = w.settle.items := by
    funext b i
    rcases W.items b i with e | ⟨⟨a, e2⟩, e3, e4⟩
    · rw [e]
      simp only [World.settle]
      cases hs : w.items b i with
      | live a =>
        rw [hs] at e
        have : w.anyHand (w.covers b i) = true := (cov_iff R' b i).1 (I.live_cov hq e)
        simp only [this, if_true]
      | _ => rfl
    · rw [e3]
      simp only [World.settle, e2, e4, Bool.false_eq_true, if_false]
  have e2 : (World.shrunk w h').mem = w.settle.mem := by
    funext b
    rcases W.mem b with e | ⟨e2, e3, e4, _⟩
    · rw [e]
      simp only [World.settle]
      cases hs : w.mem b with
      | true =>
        rw [hs] at e
        have : w.anyHand (w.keeps b) = true := (hold_iff R' b).1 (I.mem_hold hq e)
        rw [this]; rfl
      | false => rfl
    · rw [e3]
      simp only [World.settle, e2, e4, Bool.and_false]
  have e3 : World.shrunk w h' = { w with items := (World.shrunk w h').items, mem := (World.shrunk w h').mem } := rfl
  rw [e3, e1, e2]; rfl

/-- One call, with all the drops it causes. -/
theorem call_sim (R : Rel umax s w []) (op : Op α) : ∃ s' o, call umax s op = .ok (s', o) ∧ Rel umax s' (w.call umax op).1 [] ∧
    o = (w.call umax op).2 := by
  obtain ⟨s1, o, ts, w1, e, R1, _, ha⟩ := exec_sim R op
  have ha := ha rfl
  rw [List.append_nil] at R1
  obtain ⟨h2, e2, I2, p2⟩ := drain_ok (T := tabToks umax s1.hs) (fuelFor s1.h ts) (R1.inv.perm List.perm_append_comm) (Nat.le_refl _)
  refine ⟨{ s1 with h := h2 }, o, ?_, ?_, ?_⟩
  · simp only [call, e]; show (do let h ← drain (fuelFor s1.h ts) s1.h ts; pure _) = _
    rw [e2]; rfl
  · have := R1.shrink (T' := []) (by rwa [List.append_nil]) p2
    rw [R1.settle I2 p2] at this
    simp only [World.call, ← ha]; exact this
  · simp only [World.call, ← ha]

/-- A history of calls. -/
theorem run_sim : ∀ (ops : List (Op α)) {s : State α} {w : World α}, Rel umax s w [] →
    ∃ s', run umax s ops = .ok (s', (w.run umax ops).2) ∧ Rel umax s' (w.run umax ops).1 [] := by
  intro ops
  induction ops with
  | nil => intro s w R; exact ⟨s, rfl, R⟩
  | cons op ops ih =>
    intro s w R
    obtain ⟨s1, o, e1, R1, rfl⟩ := call_sim R op
    obtain ⟨s2, e2, R2⟩ := ih R1
    refine ⟨s2, ?_, R2⟩
    simp only [run, e1]
    show (do let (s, os) ← run umax s1 ops; pure (s, _ :: os)) = _
    rw [e2]; rfl

/-- One pending drop. -/
theorem task_sim {t : Task} (R : Rel umax s w (t.toks ++ T)) : ∃ h' ts w', taskStep s.h t = .ok (h', ts) ∧
    Rel umax { s with h := h' } w' (toksOf ts ++ T) ∧ w.Sweep w' := by
  have I := R.inv.perm (show (tabToks umax s.hs ++ (t.toks ++ T)).Perm (t.toks ++ (tabToks umax s.hs ++ T)) by
    rw [← List.append_assoc, ← List.append_assoc]; exact List.perm_append_comm.append_right T)
  obtain ⟨h', ts, e, I', p, _⟩ := taskStep_ok I
  have I2 : Inv h' (tabToks umax s.hs ++ (toksOf ts ++ T)) := I'.perm (by
    rw [← List.append_assoc, ← List.append_assoc]; exact List.perm_append_comm.append_right T)
  exact ⟨h', ts, _, e, R.shrink I2 p, R.sweep I2 p⟩

end

theorem Inv.init (zst : Bool) : Inv (α := α) (Heap.empty zst) [] where
  good := by
    refine ⟨?_, ?_⟩
    · constructor <;> constructor <;> (intros; simp_all [Heap.empty])
    · constructor <;> (intros; simp_all [Heap.empty, nsum, sumTo, num])
  toks t h := by cases h
  bufs b i _ := rfl

theorem Rel.init (umax : Nat) (zst : Bool) : Rel umax (α := α) ⟨Heap.empty zst, []⟩ (World.empty zst) [] where
  inv := Inv.init zst
  core := by constructor <;> (intros; simp_all [Heap.empty, World.empty])
  tab := ⟨rfl, fun j => .inl ⟨rfl, rfl⟩⟩

/-- With calls from inside destructors, nothing goes wrong, and everything that happens is
allowed by the specification. -/
theorem reach_sim {umax : Nat} {zst : Bool} {c : Config α} (h : Config.Reach umax zst c) :
    ∃ w, World.Evolves umax zst w ∧ Rel umax c.st w (toksOf c.tasks) := by
  induction h with
  | init => exact ⟨_, .init, Rel.init umax zst⟩
  | step c c' _ st ih =>
    obtain ⟨w, hw, R⟩ := ih
    generalize hr : (Except.ok c' : Except UB (Config α)) = r at st
    cases st with
    | task st t ts =>
      rw [toksOf_cons] at R
      obtain ⟨h', new, w', e, R', sw⟩ := task_sim R
      rw [e] at hr
      simp only [Except.map, Except.ok.injEq] at hr
      subst hr
      exact ⟨w', .sweep _ _ hw sw, by simpa using R'⟩
    | call st ts op hp =>
      obtain ⟨s', o, new, w', e, R', hm, _⟩ := exec_sim R op
      rw [e] at hr
      simp only [Except.map, Except.ok.injEq] at hr
      subst hr
      exact ⟨w', .call _ _ _ hw hm, by simpa using R'⟩

theorem step_ok {umax : Nat} {zst : Bool} {c : Config α} (h : Config.Reach umax zst c) {r : Except UB (Config α)}
    (st : Config.Step umax c r) : ∃ c', r = .ok c' := by
  obtain ⟨w, _, R⟩ := reach_sim h
  cases st with
  | task st t ts =>
    rw [toksOf_cons] at R
    obtain ⟨h', new, _, e, _⟩ := task_sim R
    exact ⟨_, by rw [e]; rfl⟩
  | call st ts op hp =>
    obtain ⟨s', o, new, _, e, _⟩ := exec_sim R op
    exact ⟨_, by rw [e]; rfl⟩

end Verif.Rc
