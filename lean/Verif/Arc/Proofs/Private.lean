import Verif.Arc.Contract
import Verif.Arc.Proofs.Zone
import Verif.Arc.Proofs.Stale
import Verif.Arc.Proofs.Refuse
import Verif.Props.ArcRelease
/-!
# A slice nobody else has anything to do with

If no handle and no call other than those given holds anything that is, contains or is part of
the slice, then this stays so, and `get_mut` and `into_mut` on the slice are granted.
-/

namespace Verif.Arc
open Verif.Spec (Side Slot Family Rng End)
open Verif.Rc
variable {α : Type}

section
variable {c c' : Conf α}

/-- The tokens of a call that has been started are those of the handle it takes. -/
theorem start_tok {op : Op α} (h : SStep c op c') {j : Nat} {cl : Call α} (hj : c'.calls[j]? = some cl) :
    c.calls[j]? = some cl ∨ ((∀ t ∈ callT cl, ∃ k en, op.on = some k ∧ c.get k = some en ∧ t ∈ entT en) ∧
      ∀ k, cl.borrow = some k → op.on = some k ∧ ∃ en, c.get k = some en ∧ c'.get k = some en) := by
  rcases start_call h hj with h1 | ⟨_, _, _, h1⟩
  · exact .inl h1
  · refine .inr ?_
    rcases h1 with ⟨xs, h1, h2, h3⟩ | ⟨xs, h1, h2, h3⟩ | ⟨k, d, g, h0, h3, h4, h2, h1⟩ | ⟨k, d, g, b, h0, h3, h4, h2, h1⟩ |
      ⟨k, d, g, h0, _, h3, _, h1⟩ | ⟨k, d, g, b, h0, _, h3, _, ho, h1, h2⟩ | ⟨k, r, b, h0, _, h3, _, h1⟩
    · exact ⟨fun t ht => by simp [callT, h1, h2, pcT] at ht, fun k hk => by rw [h3] at hk; cases hk⟩
    · exact ⟨fun t ht => by simp [callT, h1, h2, pcT] at ht, fun k hk => by rw [h3] at hk; cases hk⟩
    · refine ⟨fun t ht => ?_, fun k' hk => ?_⟩
      · rcases h1 with ⟨_, h1⟩ | ⟨s, _, h1⟩ | ⟨_, h1⟩ <;> simp [callT, h1, h2, pcT] at ht
      · rw [h3] at hk; cases hk
        refine ⟨?_, _, h0, h4⟩
        rcases h1 with ⟨rfl, h1⟩ | ⟨s, rfl, h1⟩ | ⟨rfl, h1⟩ <;> rfl
    · refine ⟨fun t ht => ?_, fun k' hk => ?_⟩
      · rcases h1 with ⟨_, h1⟩ | ⟨_, h1⟩ <;> simp [callT, h1, h2, pcT] at ht
      · rw [h3] at hk; cases hk
        refine ⟨?_, _, h0, h4⟩
        rcases h1 with ⟨rfl, h1⟩ | ⟨rfl, h1⟩ <;> rfl
    · refine ⟨fun t ht => ⟨k, _, ?_, h0, ?_⟩, fun k hk => by rw [h3] at hk; cases hk⟩
      · rcases h1 with ⟨rfl, _⟩ | ⟨rfl, _⟩ | ⟨rfl, _⟩ <;> rfl
      · rcases h1 with ⟨_, h1, h2⟩ | ⟨_, h1, h2⟩ | ⟨_, h1, h2⟩ <;> simpa [callT, h1, h2, pcT, ataskT, entT] using ht
    · refine ⟨fun t ht => ⟨k, _, by rw [ho]; rfl, h0, by simpa [callT, h1, h2, pcT, entT] using ht⟩, fun k hk => by rw [h3] at hk; cases hk⟩
    · refine ⟨fun t ht => ⟨k, _, ?_, h0, ?_⟩, fun k hk => by rw [h3] at hk; cases hk⟩
      · rcases h1 with ⟨rfl, _⟩ | ⟨s, rfl, _⟩ | ⟨e, rfl, _⟩ | ⟨e, n, rfl, _⟩ | ⟨rfl, _⟩ <;> rfl
      · rcases h1 with ⟨_, h1, h2⟩ | ⟨s, _, h1, h2⟩ | ⟨e, _, h1, h2⟩ | ⟨e, n, _, h1, h2⟩ | ⟨_, h1, h2⟩ <;>
          simpa [callT, h1, h2, pcT, ataskT, taskT, entT] using ht

/-- A panic gives nobody anything. -/
theorem panic_tok {i : Nat} {cl : Call α} {r : Reg} {ts ts' us : List ATask} {s : Nat → Nat → Slot α} (p : Panicked c c' i cl r ts ts' us s)
    {j : Nat} {clj : Call α} (hj : c'.calls[j]? = some clj) {t : AT} (ht : t ∈ callT clj) :
    (∃ r, t = .reg r) ∨ ∃ cl, c.calls[j]? = some cl ∧ t ∈ callT cl := by
  rcases p.calls hj with ⟨rfl, rfl⟩ | ⟨_, hj⟩
  · simp only [callT, pcT, List.append_nil, List.flatMap_cons, List.flatMap_append, List.mem_append] at ht
    rcases ht with ht | ht | ht
    · simp [ataskT, taskT] at ht; exact .inl ⟨_, ht⟩
    · obtain ⟨u, h1, h2⟩ := List.mem_flatMap.1 ht
      obtain ⟨t0, h3, h4⟩ := p.uw.mem u h1
      rcases h4 with rfl | ⟨r, rfl, rfl⟩
      · refine .inr ⟨cl, p.call, List.mem_append_left _ (List.mem_flatMap.2 ⟨u, ?_, h2⟩)⟩
        rw [p.tasks]; simp [h3]
      · simp [ataskT, taskT] at h2; exact .inl ⟨_, h2⟩
    · refine .inr ⟨cl, p.call, List.mem_append_right _ ?_⟩
      rcases cleanup_cases p.clean with ⟨r, hpc, rfl⟩ | ⟨x0, b, og, fs, y, hpc, rfl⟩
      · simp at ht
      · rw [hpc]
        obtain ⟨u, h1, h2⟩ := List.mem_flatMap.1 ht
        simp only [List.mem_append, List.mem_map, List.mem_singleton] at h1
        rcases h1 with (⟨g, h1, rfl⟩ | ⟨f, h1, rfl⟩) | rfl
        · simp [ataskT] at h2; subst h2
          simp only [pcT, List.mem_append]
          exact .inl (List.mem_map.2 ⟨g, h1, rfl⟩)
        · simp [ataskT, taskT] at h2; subst h2
          simp only [pcT, List.mem_append, List.mem_cons]
          exact .inr (.inr (List.mem_map.2 ⟨f, h1, rfl⟩))
        · simp [ataskT, taskT] at h2; subst h2
          simp [pcT]
  · exact .inr ⟨clj, hj, ht⟩

/-- Finished calls do nothing. -/
theorem fin_step {i : Nat} {cl : Call α} (hi : c.calls[i]? = some cl) (hf : cl.fin = true) (e : c.step i = .ok c') :
    c'.a = c.a ∧ c'.hs = c.hs ∧ ∀ (j : Nat) clj, c'.calls[j]? = some clj → c.calls[j]? = some clj := by
  obtain ⟨r, hr, ht⟩ := fin_pc hf
  cases CStep.of e with
  | none h => rw [hi] at h; cases h
  | task cl0 t ts a' new hi0 ht0 e1 => rw [hi] at hi0; cases hi0; rw [ht] at ht0; cases ht0
  | pc cl0 a' n hi0 ht0 e1 =>
    rw [hi] at hi0; cases hi0
    rw [hr] at e1
    cases e1
    refine ⟨rfl, by simp [Conf.after], fun j clj hj => ?_⟩
    rcases after_calls hi hj with ⟨rfl, rfl⟩ | ⟨_, hj⟩
    · rw [hi]
      obtain ⟨op, pc, ts, bo, on, out⟩ := cl
      cases hr; cases ht
      simp
    · exact hj

/-- What a step keeps of the calls. -/
theorem step_keep {i : Nat} (e : c.step i = .ok c') {j : Nat} {clj : Call α} (hj : c'.calls[j]? = some clj) :
    ∃ cl, c.calls[j]? = some cl ∧ clj.borrow = cl.borrow ∧ clj.on = cl.on ∧ (j ≠ i → clj = cl) := by
  cases CStep.of e with
  | none h => exact ⟨clj, hj, rfl, rfl, fun _ => rfl⟩
  | task cl t ts a' new hi ht e =>
    rcases after_calls hi hj with ⟨rfl, rfl⟩ | ⟨_, hj⟩
    · exact ⟨cl, hi, rfl, rfl, fun h => absurd rfl h⟩
    · exact ⟨clj, hj, rfl, rfl, fun _ => rfl⟩
  | pc cl a' n hi ht e2 =>
    rcases after_calls hi hj with ⟨rfl, rfl⟩ | ⟨_, hj⟩
    · exact ⟨cl, hi, rfl, rfl, fun h => absurd rfl h⟩
    · exact ⟨clj, hj, rfl, rfl, fun _ => rfl⟩

end

/-! ## What is neither above nor below -/

/-- Everything that has nothing to do with the slice `d`, labelled `L`. -/
def off (L : Lab) (d : Nat) : Zone where
  R l := ¬ (l.up L ∨ L.up l)
  G l := ¬ L.up l
  D x _ := x ≠ d

theorem off_ok {a : Arena α} {L : Lab} {d : Nat} (hL : a.b.sk.lab d = L) (hl : Loose a d) (hf : L.fam < a.b.sk.nfam) : (off L d).OK a where
  kid l s h := by
    rintro (h1 | h1)
    · exact h (.inl (Lab.up_of_child h1))
    · rcases Lab.up_child_iff.1 h1 with h2 | h2
      · subst h2; exact h (.inl (Lab.up_child _ _))
      · exact h (.inr h2)
  gup l s h h1 := h (Lab.up_trans h1 (Lab.up_child _ _))
  par p v s hp h := by
    rintro (h1 | h1)
    · have := hl p v hp (by rw [hL]; exact h1)
      rw [hL] at this
      exact h (.inr (by rw [this]; exact Lab.up_child _ _))
    · exact h (.inr (Lab.up_trans h1 (Lab.up_child _ _)))
  new l h := by
    rintro (h1 | h1)
    · have := h1.1; omega
    · have := h1.1; omega
  rg l h h1 := h (.inr h1)
  rd x _ h := by
    rintro rfl
    exact h (.inl (by rw [hL]; exact Lab.up_refl _))

/-- Nobody except the owner of handle `k` and the calls in `X` has anything to do with slice `d`. -/
structure Priv (c : Conf α) (L : Lab) (d k : Nat) (X : Nat → Prop) : Prop where
  lab : c.a.b.sk.lab d = L
  lt : d < c.a.b.sk.next
  kind : c.a.b.sk.kind d = .data
  loose : Loose c.a d
  len : k < c.hs.length
  ents : ∀ k' en, k' ≠ k → c.get k' = some en → HQ (off L d) c.a en.h
  calls : ∀ (i : Nat) cl, ¬ X i → c.calls[i]? = some cl → (∀ t ∈ callT cl, TQ (off L d) c.a t) ∧ (cl.fin = false → cl.borrow ≠ some k)

section
variable {c c' : Conf α} {L : Lab} {d k : Nat} {X : Nat → Prop}

theorem Priv.ok (Q : Priv c L d k X) (B : c.BI) : (off L d).OK c.a := by
  refine off_ok Q.lab Q.loose ?_
  rw [← Q.lab]
  exact B.heap.base.famLt d Q.lt (by rw [Q.kind]; simp)

theorem Priv.next' {b : Bool} {Y : Nat → Prop} (Q : Priv c L d k X) (hXY : ∀ i, X i → Y i) (A : c.IA b) (B' : c'.BI) (ge : GEvo c.a c'.a) (hl : c.hs.length ≤ c'.hs.length)
    (he : ∀ k' en, k' ≠ k → c'.get k' = some en → (∃ m, c.get k' = some ⟨en.h, m⟩) ∨ HQ (off L d) c'.a en.h)
    (hc : ∀ (i : Nat) cl, ¬ Y i → c'.calls[i]? = some cl →
      (∀ t ∈ callT cl, TQ (off L d) c'.a t ∨ ∃ cl0, c.calls[i]? = some cl0 ∧ t ∈ callT cl0) ∧ (cl.fin = false → cl.borrow ≠ some k)) :
    Priv c' L d k Y where
  lab := by rw [ge.evo.evo.lab d Q.lt]; exact Q.lab
  lt := Nat.lt_of_lt_of_le Q.lt ge.evo.evo.next
  kind := by rw [ge.evo.evo.kind d Q.lt]; exact Q.kind
  loose := Q.loose.mono ge.evo A.bi.heap.base B'.heap.base Q.lt Q.kind
  len := Nat.lt_of_lt_of_le Q.len hl
  ents k' en hk hg := by
    rcases he k' en hk hg with ⟨m, h⟩ | h
    · exact (Q.ents k' _ hk h).mono A.bi ge h
    · exact h
  calls i cl hx hi := by
    obtain ⟨h1, h2⟩ := hc i cl hx hi
    refine ⟨fun t ht => ?_, h2⟩
    rcases h1 t ht with h | ⟨cl0, h3, h4⟩
    · exact h
    · exact ((Q.calls i cl0 (fun h => hx (hXY i h)) h3).1 t h4).mono A.bi A.gf ge (Conf.call_tok h3 h4)

theorem Priv.next {b : Bool} (Q : Priv c L d k X) (A : c.IA b) (B' : c'.BI) (ge : GEvo c.a c'.a) (hl : c.hs.length ≤ c'.hs.length)
    (he : ∀ k' en, k' ≠ k → c'.get k' = some en → (∃ m, c.get k' = some ⟨en.h, m⟩) ∨ HQ (off L d) c'.a en.h)
    (hc : ∀ (i : Nat) cl, ¬ X i → c'.calls[i]? = some cl →
      (∀ t ∈ callT cl, TQ (off L d) c'.a t ∨ ∃ cl0, c.calls[i]? = some cl0 ∧ t ∈ callT cl0) ∧ (cl.fin = false → cl.borrow ≠ some k)) :
    Priv c' L d k X :=
  Q.next' (fun _ => id) A B' ge hl he hc

/-- A step of any call but those in `X`. -/
theorem Priv.step {b : Bool} (Q : Priv c L d k X) (A : c.IA b) {i : Nat} (hx : ¬ X i) (e : c.step i = .ok c') : Priv c' L d k X := by
  obtain ⟨c3, e3, A', ge⟩ := A.step (i := i)
  rw [e] at e3; cases e3
  cases hi : c.calls[i]? with
  | none =>
    have : c' = c := by simp only [Conf.step, hi, Except.ok.injEq] at e; exact e.symm
    subst this; exact Q
  | some cl =>
    cases hf : cl.fin with
    | true =>
      obtain ⟨h1, h2, h3⟩ := fin_step hi hf e
      refine Q.next A A'.bi ge (by rw [h2]; exact Nat.le_refl _) (fun k' en _ hg => .inl ⟨en.mutb, ?_⟩) fun j clj hj hcl => ?_
      · simp only [Conf.get, h2] at hg ⊢; exact hg
      · exact ⟨fun t ht => .inr ⟨clj, h3 j clj hcl, ht⟩, (Q.calls j clj hj (h3 j clj hcl)).2⟩
    | false =>
      obtain ⟨q1, q2⟩ := Q.calls i cl hx hi
      have hb : ∀ h, cl.bh c = some h → HQ (off L d) c.a h := by
        intro h hh
        obtain ⟨k0, m, h1, h2⟩ := Conf.bh_get hh
        exact Q.ents k0 _ (fun e => q2 hf (e ▸ h1)) h2
      obtain ⟨z1, z2⟩ := zone_step A (Q.ok A.bi) hi q1 hb e
      refine Q.next A A'.bi ge (step_len e) (fun k' en _ hg => ?_) fun j clj hj hcl => ?_
      · rcases z2 k' en hg with h | h
        · exact .inl ⟨en.mutb, h⟩
        · exact .inr h
      · obtain ⟨cl0, h1, h2, _, h3⟩ := step_keep e hcl
        by_cases hij : j = i
        · subst hij
          refine ⟨fun t ht => .inl (z1 clj hcl t ht), fun _ => ?_⟩
          rw [hi] at h1; cases h1
          rw [h2]; exact q2 hf
        · cases h3 hij
          exact ⟨fun t ht => .inr ⟨clj, h1, ht⟩, (Q.calls j clj hj h1).2⟩

/-- A step of a call in `X` that returns no handle. -/
theorem Priv.own {b : Bool} (Q : Priv c L d k X) (A : c.IA b) {i : Nat} (hx : X i) (hs : c'.hs = c.hs) (e : c.step i = .ok c') : Priv c' L d k X := by
  obtain ⟨c3, e3, A', ge⟩ := A.step (i := i)
  rw [e] at e3; cases e3
  refine Q.next A A'.bi ge (step_len e) (fun k' en _ hg => .inl ⟨en.mutb, ?_⟩) fun j clj hj hcl => ?_
  · simp only [Conf.get, hs] at hg ⊢; exact hg
  · obtain ⟨cl0, h1, h2, _, h3⟩ := step_keep e hcl
    cases h3 fun h => hj (h ▸ hx)
    exact ⟨fun t ht => .inr ⟨clj, h1, ht⟩, (Q.calls j clj hj h1).2⟩

theorem Priv.start {b : Bool} (Q : Priv c L d k X) (A : c.IA b) (B' : c'.BI) {op : Op α} (hk : op.on ≠ some k) (e : c.start op = some c') : Priv c' L d k X := by
  have ha := (Conf.start_T e).2
  have ge : GEvo c.a c'.a := by rw [ha]; exact .refl A.bi.heap.base
  have O := Q.ok A.bi
  refine Q.next A B' ge (start_len (.of e)) (fun k' en hne hg => ?_) fun j clj hj hcl => ?_
  · rcases start_get (.of e) hg with h | ⟨_, _, rfl⟩ | ⟨d', g', _, h1, rfl⟩
    · exact .inl ⟨en.mutb, h⟩
    · exact .inr fun x hx => by cases hx
    · exact .inl ⟨_, h1⟩
  · rcases start_tok (.of e) hcl with h | ⟨h1, h2⟩
    · exact ⟨fun t ht => .inr ⟨clj, h, ht⟩, (Q.calls j clj hj h).2⟩
    · refine ⟨fun t ht => .inl ?_, fun _ hb => hk (h2 k hb).1⟩
      obtain ⟨k', en, h3, h4, h5⟩ := h1 t ht
      rw [ha]
      exact (Q.ents k' en (fun e => hk (e ▸ h3)) h4).tok A.gf O h4 t h5

/-- If the handle is gone, any call may be started. -/
theorem Priv.start' {b : Bool} (Q : Priv c L d k X) (A : c.IA b) (B' : c'.BI) {op : Op α} (hk : c.get k = none) (e : c.start op = some c') :
    Priv c' L d k X := by
  refine Q.start A B' (fun h => ?_) e
  cases SStep.of e <;> cases h <;> simp_all

theorem Priv.write {b : Bool} (Q : Priv c L d k X) (A : c.IA b) (B' : c'.BI) {en : Ent} {j : Nat} {x : α} (e : c.write en j x = .ok c') : Priv c' L d k X := by
  obtain ⟨h1, h2⟩ : c'.hs = c.hs ∧ c'.calls = c.calls := by
    rcases Conf.write_cases e with rfl | ⟨_, _, rfl⟩ <;> exact ⟨rfl, rfl⟩
  refine Q.next A B' (Conf.write_gevo A.bi e) (by rw [h1]; exact Nat.le_refl _) (fun k' en _ hg => .inl ⟨en.mutb, ?_⟩) fun j clj hj hcl => ?_
  · simp only [Conf.get, h1] at hg ⊢; exact hg
  · rw [h2] at hcl
    exact ⟨fun t ht => .inr ⟨clj, hcl, ht⟩, (Q.calls j clj hj hcl).2⟩

theorem Priv.panic {b : Bool} (Q : Priv c L d k X) (A : c.IA b) {i : Nat} (e : c.panic i = some c') : Priv c' L d k X := by
  obtain ⟨cl, r, ts, ts', us, s, p⟩ := Panicked.of A.bi.heap e
  have hs : c'.hs = c.hs := by rw [p.eq]
  refine Q.next A (A.panic e).bi (p.gevo A.bi.heap.base) (by rw [hs]; exact Nat.le_refl _) (fun k' en _ hg => .inl ⟨en.mutb, ?_⟩) fun j clj hj hcl => ?_
  · rw [p.get] at hg; exact hg
  · refine ⟨fun t ht => ?_, fun hf => ?_⟩
    · rcases panic_tok p hcl ht with ⟨r, rfl⟩ | h
      · exact .inl trivial
      · exact .inr h
    · rcases p.calls hcl with ⟨rfl, rfl⟩ | ⟨_, hcl⟩
      · exact (Q.calls _ cl hj p.call).2 p.fin
      · exact (Q.calls j clj hj hcl).2 hf

/-! ## What the counts are -/

theorem rest_tok {i : Nat} {t : AT} (h : t ∈ c.rest i) :
    (∃ k en, c.get k = some en ∧ t ∈ entT en) ∨ ∃ (j : Nat) (cl : Call α), j ≠ i ∧ c.calls[j]? = some cl ∧ t ∈ callT cl := by
  rcases List.mem_append.1 h with h | h
  · obtain ⟨o, h1, h2⟩ := List.mem_flatMap.1 h
    cases o with
    | none => simp [slotT] at h2
    | some en =>
      obtain ⟨k, hk⟩ := List.mem_iff_getElem?.1 h1
      exact .inl ⟨k, en, by simp [Conf.get, hk], h2⟩
  · obtain ⟨cl, h1, h2⟩ := List.mem_flatMap.1 h
    refine .inr ?_
    rcases List.mem_append.1 h1 with h1 | h1
    · obtain ⟨j, hj⟩ := List.mem_iff_getElem?.1 h1
      rw [List.getElem?_take] at hj
      split at hj
      · exact ⟨j, cl, by omega, hj, h2⟩
      · cases hj
    · obtain ⟨j, hj⟩ := List.mem_iff_getElem?.1 h1
      rw [List.getElem?_drop] at hj
      exact ⟨i + 1 + j, cl, by omega, hj, h2⟩

/-- Everything held elsewhere has nothing to do with `d`. -/
theorem Priv.rest {i : Nat} (Q : Priv c L d k (· = i)) (B : c.BI) (F : c.GFI) (hk : c.get k = none) {t : AT} (ht : t ∈ c.rest i) : TQ (off L d) c.a t := by
  rcases rest_tok ht with ⟨k', en, h1, h2⟩ | ⟨j, cl, hj, h1, h2⟩
  · exact (Q.ents k' en (by rintro rfl; rw [hk] at h1; cases h1) h1).tok F (Q.ok B) h1 t h2
  · exact (Q.calls j cl hj h1).1 t h2

/-- Below every guard there is one that is held. -/
theorem gd_held (B : c.BI) (F : c.GFI) {g : Nat} {v : GuardV} (hg : c.a.guard g = some v) :
    ∃ g', .gd g' ∈ c.T ∧ (c.a.b.sk.lab (c.a.gOf g)).up (c.a.b.sk.lab (c.a.gOf g')) := by
  generalize hn : c.a.ng - g = n
  induction n using Nat.strongRecOn generalizing g v with
  | ind n ih =>
    have hs := (Arc.GI.live B.gi g).2 ⟨v, hg⟩
    rw [Arc.GI.strong B.gi g] at hs
    by_cases hc : 0 < (aGd c.T).count g
    · obtain ⟨t, h1, h2⟩ := List.mem_flatMap.1 (List.count_pos_iff.1 hc)
      cases t with
      | gd x =>
        simp only [AT.gds, List.mem_singleton] at h2; subst h2
        exact ⟨g, h1, Lab.up_refl _⟩
      | _ => simp at h2
    · obtain ⟨x, w, hx, hw, hp⟩ := prefs_mem (f := c.a.guard) (n := c.a.ng) (g := g) (by omega)
      obtain ⟨h1, h2⟩ := F.gf.link1 x w g hw hp
      obtain ⟨g', h3, h4⟩ := ih (c.a.ng - x) (by omega) hw rfl
      obtain ⟨_, _, _, s, h5⟩ := B.par.par _ _ h2
      rw [h5] at h4
      exact ⟨g', h3, Lab.up_of_child h4⟩

structure Counts (a : Arena α) (d g : Nat) : Prop where
  strong : a.b.strong d = 1
  gS : a.gS g = 1
  gW : a.gW g = 1

theorem Priv.counts {i g : Nat} {cl : Call α} (Q : Priv c L d k (· = i)) (B : c.BI) (F : c.GFI) (hk : c.get k = none) (hi : c.calls[i]? = some cl)
    (ht : callT cl = [.ref d, .gd g]) (ho : ofG c.a d g) : Counts c.a d g := by
  have S := B.heap.good.shape.toDShape
  have p := Conf.T_perm hi
  rw [ht] at p
  have rest := fun t => Q.rest B F hk (t := t)
  obtain ⟨hgl, hgo⟩ := ho
  have notL : ¬ (off L d).G (c.a.b.sk.lab (c.a.gOf g)) := by
    rw [hgo, Q.lab]; exact fun h => h (Lab.up_refl _)
  have r0 : .ref d ∉ c.rest i := fun h => (rest _ h Q.kind) (.inl (by rw [Q.lab]; exact Lab.up_refl _))
  have g0 : .gd g ∉ c.rest i := fun h => notL (rest _ h)
  have w0 : .wk g ∉ c.rest i := fun h => rest _ h hgo
  have cS : (aS c.T).count d = 1 := by
    rw [(aS_perm p).count_eq]
    have : (aS (c.rest i)).count d = 0 := by
      refine List.count_eq_zero.2 fun hm => ?_
      obtain ⟨t, h1, h2⟩ := List.mem_flatMap.1 hm
      cases t with
      | ref x => simp only [AT.S, List.mem_singleton] at h2; subst h2; exact r0 h1
      | reg r =>
        have h3 : r.alloc = some d := by simpa using h2
        have := B.heap.good.shape.kinds _ _ ((B.heap.regs r (p.mem_iff.2 (List.mem_append_right _ h1))).1 d h3)
        rw [Q.kind] at this; cases this
      | _ => simp at h2
    simp [this]
  have cG : (aGd c.T).count g = 1 := by
    rw [(aGd_perm p).count_eq]
    have : (aGd (c.rest i)).count g = 0 := by
      refine List.count_eq_zero.2 fun hm => ?_
      obtain ⟨t, h1, h2⟩ := List.mem_flatMap.1 hm
      cases t with
      | gd x => simp only [AT.gds, List.mem_singleton] at h2; subst h2; exact g0 h1
      | _ => simp at h2
    simp [this]
  have cW : (aWk c.T).count g = 0 := by
    rw [(aWk_perm p).count_eq]
    have : (aWk (c.rest i)).count g = 0 := by
      refine List.count_eq_zero.2 fun hm => ?_
      obtain ⟨t, h1, h2⟩ := List.mem_flatMap.1 hm
      cases t with
      | wk x => simp only [AT.wks, List.mem_singleton] at h2; subst h2; exact w0 h1
      | _ => simp at h2
    simp [this]
  refine ⟨?_, ?_, ?_⟩
  · have hs := B.heap.good.ledger.s d
    rw [cS] at hs
    refine Decidable.byContradiction fun hn => ?_
    obtain ⟨y, n, _, hy, hmm⟩ := nsum_pos (f := fun n => n.srefs.count d) (k := c.a.b.sk) (by omega)
    have hmm := List.count_pos_iff.1 hmm
    have kid : ∀ w s, c.a.b.sk.node y = some (.data w) → w.kids s = some d → False := by
      intro w s hw hs
      obtain ⟨_, h3, _⟩ := S.dataKid y w s d hw hs
      have h4 := Q.loose y w hw (by rw [h3]; exact Lab.up_child _ _)
      rw [h3] at h4
      exact Lab.child_ne _ _ h4.symm
    rcases B.heap.only y n hy with hkn | hkn
    · obtain ⟨w, rfl⟩ := data_of_kind hkn
      simp only [Node.srefs, List.mem_append, Option.mem_toList] at hmm
      rcases hmm with (hmm | hmm) | hmm
      · exact kid w _ hy hmm
      · exact kid w _ hy hmm
      · have := B.heap.good.shape.kinds _ _ (S.dataAlloc y w d hy hmm)
        rw [Q.kind] at this; cases this
    · cases n <;> simp [Node.kind] at hkn
      simp [Node.srefs] at hmm
  · have hs := Arc.GI.strong B.gi g
    rw [cG] at hs
    refine Decidable.byContradiction fun hn => ?_
    obtain ⟨x, w, hx, hw, hp⟩ := prefs_mem (f := c.a.guard) (n := c.a.ng) (g := g) (by omega)
    obtain ⟨_, h4⟩ := F.gf.link1 x w g hw hp
    obtain ⟨g', h5, h6⟩ := gd_held B F hw
    obtain ⟨_, _, _, s, h7⟩ := B.par.par _ _ h4
    rw [h7, hgo, Q.lab] at h6
    rcases List.mem_append.1 (p.mem_iff.1 h5) with h8 | h8
    · simp only [List.mem_cons, AT.gd.injEq, reduceCtorEq, List.not_mem_nil, or_false, false_or] at h8
      subst h8
      rw [hgo, Q.lab] at h6
      exact Lab.not_child_up _ _ h6
    · exact rest _ h8 (Lab.up_of_child h6)
  · have hs := Arc.GI.weak B.gi g
    rw [cW, if_pos hgl] at hs
    omega

/-- Nobody else has closed a gate. -/
theorem Priv.gate {i g : Nat} {cl : Call α} (Q : Priv c L d k (· = i)) (hi : c.calls[i]? = some cl)
    (ho : ofG c.a d g) (f : Pc α → List Nat) (hf : ∀ pc g, g ∈ f pc → g ∈ aGd (pcT pc)) (h0 : f cl.pc = []) :
    (c.calls.flatMap fun cl => f cl.pc).count g = 0 := by
  refine List.count_eq_zero.2 fun hm => ?_
  obtain ⟨clj, h1, h2⟩ := List.mem_flatMap.1 hm
  obtain ⟨j, hj⟩ := List.mem_iff_getElem?.1 h1
  obtain ⟨t, h3, h4⟩ := List.mem_flatMap.1 (hf _ _ h2)
  have hne : j ≠ i := by
    rintro rfl
    rw [hi] at hj; cases hj
    rw [h0] at h2; cases h2
  have h5 := (Q.calls j clj hne hj).1 t (List.mem_append_right _ h3)
  cases t with
  | gd x =>
    simp only [AT.gds, List.mem_singleton] at h4; subst h4
    simp only [TQ] at h5
    rw [ho.2, Q.lab] at h5
    exact h5 (Lab.up_refl _)
  | _ => simp at h4

/-! ## The call is granted -/

/-- `get_mut` or `into_mut` on slice `d`, before it is known that it is granted. -/
def Early (d g : Nat) (pc : Pc α) : Prop :=
  pc = .gm0 d g ∨ pc = .gm1 d g ∨ pc = .gm2 d g ∨ pc = .gm3 d g ∨ pc = .gm4 d g ∨ pc = .im0 d g ∨ pc = .im1 d g ∨ pc = .im2 d g

/-- Afterwards. -/
def Late : Pc α → Prop
  | .gmOpenC _ _ ok | .gmOpenD _ _ ok => ok = true
  | .imFg .. | .imGate .. | .imOk .. => True
  | .done r => r = .handle
  | _ => False

structure Grant (c : Conf α) (L : Lab) (d g k i : Nat) : Prop where
  call : ∃ cl, c.calls[i]? = some cl ∧
    ((Early d g cl.pc ∧ cl.tasks = [] ∧ Priv c L d k (· = i) ∧ c.get k = none) ∨ (Late cl.pc ∧ (cl.pc = .done .handle → cl.tasks = [])))

theorem Late.step {a a' : Arena α} {pc : Pc α} {n : Next α} (h : Late pc) (s : PStep a pc a' n) : Late n.pc ∧ (n.pc = .done .handle → n.tasks = []) := by
  cases s <;> simp_all [Late]

/-- While the call is not decided, its next step goes the right way. -/
theorem Early.step {a a' : Arena α} {pc : Pc α} {n : Next α} {g : Nat} (h : Early d g pc) (s : PStep a pc a' n) (C : Counts a d g)
    (hc : ∀ v, a.guard g = some v → v.cGate = true → cL pc ≠ []) (hd : ∀ v, a.guard g = some v → v.dGate = true → dL pc ≠ []) :
    (Early d g n.pc ∧ n.tasks = [] ∧ n.push = []) ∨ (Late n.pc ∧ (n.pc = .done .handle → n.tasks = [])) := by
  obtain ⟨C1, C2, C3⟩ := C
  rcases h with rfl | rfl | rfl | rfl | rfl | rfl | rfl | rfl <;> cases s <;> simp_all [Early, Late, cL, dL]

theorem Early.tok {g : Nat} {pc : Pc α} (h : Early d g pc) : pcT pc = [.ref d, .gd g] := by
  rcases h with rfl | rfl | rfl | rfl | rfl | rfl | rfl | rfl <;> rfl

theorem Early.ofG {a : Arena α} {g : Nat} {pc : Pc α} (h : Early d g pc) (hp : pcG a pc) : ofG a d g := by
  rcases h with rfl | rfl | rfl | rfl | rfl | rfl | rfl | rfl <;> exact hp

theorem Grant.step {b : Bool} {g i j : Nat} (G : Grant c L d g k i) (A : c.IA b) (e : c.step j = .ok c') : Grant c' L d g k i := by
  obtain ⟨cl, hi, hcl⟩ := G.call
  by_cases hji : j = i
  · subst hji
    have hlen := (List.getElem?_eq_some_iff.1 hi).1
    cases CStep.of e with
    | none h => rw [hi] at h; cases h
    | task cl0 t ts a' new hi0 ht e1 =>
      rw [hi] at hi0; cases hi0
      refine ⟨{ cl with tasks := new ++ ts, out := cl.out ++ List.range' c.hs.length 0 }, by simp [Conf.after, hlen], .inr ?_⟩
      rcases hcl with ⟨_, h, _⟩ | ⟨h1, h2⟩
      · rw [h] at ht; cases ht
      · exact ⟨h1, fun h => by rw [h2 h] at ht; cases ht⟩
    | pc cl0 a' n hi0 ht e1 =>
      rw [hi] at hi0; cases hi0
      have s := PStep.of e1
      refine ⟨{ cl with pc := n.pc, tasks := n.tasks, out := cl.out ++ List.range' c.hs.length n.push.length }, by simp [Conf.after, hlen], ?_⟩
      rcases hcl with ⟨h1, _, Q, hk⟩ | ⟨h1, _⟩
      · have ho := h1.ofG (A.gf.calls j cl hi).1
        have hT : callT cl = [.ref d, .gd g] := by simp [callT, ht, h1.tok]
        have C := Q.counts A.bi A.gf hk hi hT ho
        have gc : ∀ v, c.a.guard g = some v → v.cGate = true → cL cl.pc ≠ [] := by
          intro v hv hg h0
          have h2 := Arc.GI.cg A.bi.gi g
          rw [Q.gate hi ho cL (fun pc g => cL_sub pc) h0] at h2
          simp [hv, hg] at h2
        have gd : ∀ v, c.a.guard g = some v → v.dGate = true → dL cl.pc ≠ [] := by
          intro v hv hg h0
          have h2 := Arc.GI.dg A.bi.gi g
          rw [Q.gate hi ho dL (fun pc g => dL_sub pc) h0] at h2
          simp [hv, hg] at h2
        rcases h1.step s C gc gd with ⟨h2, h3, h4⟩ | h2
        · refine .inl ⟨h2, h3, Q.own A (i := j) rfl (by simp [Conf.after, h4]) e, ?_⟩
          cases hk' : (c.after j a' { cl with pc := n.pc, tasks := n.tasks } n.push).get k with
          | none => rfl
          | some en =>
            have := step_get_back e Q.len hk'
            rw [hk] at this; cases this
        · exact .inr h2
      · exact .inr (h1.step s)
  · obtain ⟨hi', _⟩ : c'.calls[i]? = some cl ∧ True := by
      refine ⟨?_, trivial⟩
      cases CStep.of e with
      | none h => exact hi
      | task cl0 t ts a' new hi0 ht e1 => simpa [Conf.after, List.getElem?_set_ne hji] using hi
      | pc cl0 a' n hi0 ht e1 => simpa [Conf.after, List.getElem?_set_ne hji] using hi
    refine ⟨cl, hi', ?_⟩
    rcases hcl with ⟨h1, h2, Q, hk⟩ | h
    · refine .inl ⟨h1, h2, Q.step A hji e, ?_⟩
      cases hk' : c'.get k with
      | none => rfl
      | some en =>
        have := step_get_back e Q.len hk'
        rw [hk] at this; cases this
    · exact .inr h

theorem Grant.start {b : Bool} {g i : Nat} (G : Grant c L d g k i) (A : c.IA b) (B' : c'.BI) {op : Op α} (e : c.start op = some c') : Grant c' L d g k i := by
  obtain ⟨cl, hi, hcl⟩ := G.call
  refine ⟨cl, start_calls_old e hi, ?_⟩
  rcases hcl with ⟨h1, h2, Q, hk⟩ | h
  · refine .inl ⟨h1, h2, Q.start' A B' hk e, ?_⟩
    cases hk' : c'.get k with
    | none => rfl
    | some en =>
      have hl := Q.len
      rcases start_get (.of e) hk' with h | ⟨_, h, _⟩ | ⟨_, _, _, h, _⟩
      · rw [hk] at h; cases h
      · omega
      · rw [hk] at h; cases h
  · exact .inr h

theorem Grant.write {b : Bool} {g i : Nat} (G : Grant c L d g k i) (A : c.IA b) (B' : c'.BI) {en : Ent} {j : Nat} {x : α} (e : c.write en j x = .ok c') :
    Grant c' L d g k i := by
  obtain ⟨h1, h2⟩ : c'.hs = c.hs ∧ c'.calls = c.calls := by
    rcases Conf.write_cases e with rfl | ⟨_, _, rfl⟩ <;> exact ⟨rfl, rfl⟩
  obtain ⟨cl, hi, hcl⟩ := G.call
  refine ⟨cl, by rw [h2]; exact hi, ?_⟩
  rcases hcl with ⟨h3, h4, Q, hk⟩ | h
  · exact .inl ⟨h3, h4, Q.write A B' e, by simp only [Conf.get, h1] at hk ⊢; exact hk⟩
  · exact .inr h

theorem Grant.panic {b : Bool} {g i j : Nat} (G : Grant c L d g k i) (A : c.IA b) (e : c.panic j = some c') : Grant c' L d g k i := by
  obtain ⟨clj, r, ts, ts', us, s, p⟩ := Panicked.of A.bi.heap e
  obtain ⟨cl, hi, hcl⟩ := G.call
  have hji : j ≠ i := by
    rintro rfl
    have := p.call
    rw [hi] at this; cases this
    have h0 := p.tasks
    rcases hcl with ⟨_, h, _⟩ | ⟨h1, h2⟩
    · rw [h] at h0; cases h0
    · have h3 := p.clean
      cases hpc : clj.pc <;> rw [hpc] at h3 h1 <;> simp_all [cleanup, Late]
  refine ⟨cl, ?_, ?_⟩
  · rw [p.eq]; simpa [List.getElem?_set_ne hji] using hi
  · rcases hcl with ⟨h1, h2, Q, hk⟩ | h
    · exact .inl ⟨h1, h2, Q.panic A e, by rw [p.get]; exact hk⟩
    · exact .inr h

theorem Grant.done {g i : Nat} (G : Grant c L d g k i) {cl : Call α} (hi : c.calls[i]? = some cl) (hf : cl.fin = true) : cl.pc = .done .handle := by
  obtain ⟨cl', hi', hcl⟩ := G.call
  rw [hi] at hi'; cases hi'
  obtain ⟨r, h1, _⟩ := fin_pc hf
  rcases hcl with ⟨h2, _⟩ | ⟨h2, _⟩
  · rw [h1] at h2; simp [Early] at h2
  · rw [h1] at h2 ⊢
    cases h2; rfl

/-- The call is started. -/
theorem Grant.init {b : Bool} {g : Nat} {m : Bool} (Q : Priv c L d k fun _ => False) (A : c.IA b) (B' : c'.BI) (hk : c.get k = some ⟨.strong d g, m⟩) {op : Op α}
    (hop : op = .getMut k ∨ op = .intoMut k) (e : c.start op = some c') : Grant c' L d g k c.calls.length := by
  have ha := (Conf.start_T e).2
  have ge : GEvo c.a c'.a := by rw [ha]; exact .refl A.bi.heap.base
  obtain ⟨pc, hE, hc', hg'⟩ : ∃ pc, Early d g pc ∧ c'.calls[c.calls.length]? = some ⟨op, pc, [], none, c.node k, []⟩ ∧ c'.get k = none := by
    have hl := Q.len
    rcases hop with rfl | rfl
    · cases SStep.of e with
      | getMut k d' g' hk' hb =>
        rw [hk] at hk'; cases hk'
        exact ⟨.gm0 d g, .inl rfl, by simp [Conf.taking], by simp [Conf.taking, Conf.get, hl]⟩
    · cases SStep.of e with
      | intoMut k d' g' hk' hb =>
        rw [hk] at hk'; cases hk'
        exact ⟨.im0 d g, by simp [Early], by simp [Conf.taking], by simp [Conf.taking, Conf.get, hl]⟩
  refine ⟨_, hc', .inl ⟨hE, rfl, Q.next' (fun _ h => h.elim) A B' ge (start_len (.of e)) (fun k' en hne hg => ?_) fun j clj hj hcl => ?_, hg'⟩⟩
  · rcases start_get (.of e) hg with h | ⟨_, _, rfl⟩ | ⟨d', g', _, h1, rfl⟩
    · exact .inl ⟨en.mutb, h⟩
    · exact .inr fun x hx => by cases hx
    · exact .inl ⟨_, h1⟩
  · rcases start_call (.of e) hcl with h | ⟨h, _⟩
    · exact ⟨fun t ht => .inr ⟨clj, h, ht⟩, (Q.calls j clj id h).2⟩
    · exact absurd h hj

end
end Verif.Arc
