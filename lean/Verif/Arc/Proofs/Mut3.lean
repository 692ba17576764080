import Verif.Arc.Proofs.Mut2
/-!
# The order of reads and of writes through the result of `get_mut`
-/

namespace Verif.Arc
open Verif.Spec (Side Slot Family Rng End)
open Verif.Rc
variable {α : Type} {o : Ords} {zst : Bool}

/-- All reads so far are known to those who could get mutable access, and were known to those who wrote
after getting it. -/
structure RI (v : VConf α) : Prop where
  pend : PendI v
  gm : ∀ ev, ev ∈ v.log → ev.wr = false → ev.gm = false
  rd : ∀ (i : Nat) ev b s, v.log[i]? = some ev → ev.at_ b s = true → ev.wr = false → Rd v i b s
  ord : ∀ (i j : Nat) ev f b s, i < j → v.log[i]? = some ev → v.log[j]? = some f → ev.at_ b s = true → f.at_ b s = true →
    ev.wr = false → f.gm = true → i ∈ f.view

section
variable {v v' : VConf α}

theorem RI.init : RI (VConf.init (α := α) zst) where
  pend := by intro i cl b g e hi; simp [VConf.init, Conf.init] at hi
  gm := by intro ev h; simp [VConf.init] at h
  rd := by intro i ev b s h; simp [VConf.init] at h
  ord := by intro i j ev f b s _ h; simp [VConf.init] at h

/-- One more access to items. -/
theorem RI.push (I : RI v) (hP : PendI v') {pre : List Ev} {new : Ev} (hl : v'.log = v.log ++ (pre ++ [new])) (hp : ∀ p ∈ pre, p.at_ = fun _ _ => false)
    (hq : ∀ p ∈ pre, p.gm = false) (hng : new.wr = false → new.gm = false)
    (old : ∀ (e : Nat) ev b s, v.log[e]? = some ev → ev.at_ b s = true → ev.wr = false → Rd v e b s → Rd v' e b s)
    (fresh : ∀ b s, new.at_ b s = true → new.wr = false → Rd v' (v.log.length + pre.length) b s)
    (ord : ∀ (e : Nat) ev b s, v.log[e]? = some ev → ev.at_ b s = true → ev.wr = false → Rd v e b s → new.at_ b s = true → new.gm = true → e ∈ new.view) : RI v' := by
  refine ⟨hP, ?_, ?_, ?_⟩
  · intro ev h
    rw [hl] at h
    rcases List.mem_append.1 h with h | h
    · exact I.gm ev h
    rcases List.mem_append.1 h with h | h
    · exact fun _ => hq ev h
    · rw [List.mem_singleton.1 h]; exact hng
  · intro i ev b s hi ha hg
    rw [hl] at hi
    rcases append_calls hi with h | h | ⟨rfl, rfl⟩
    · exact old _ _ _ _ h ha hg (I.rd i ev b s h ha hg)
    · simp [hp ev h] at ha
    · exact fresh b s ha hg
  · intro i j ev f b s hij hi hj ha hf hw hg
    rw [hl] at hi hj
    rcases append_calls hi with hi' | hi' | ⟨rfl, rfl⟩
    · rcases append_calls hj with hj' | hj' | ⟨rfl, rfl⟩
      · exact I.ord i j ev f b s hij hi' hj' ha hf hw hg
      · simp [hp f hj'] at hf
      · exact ord i ev b s hi' ha hw (I.rd i ev b s hi' ha hw) hf hg
    · simp [hp ev hi'] at ha
    · have := (List.getElem?_eq_some_iff.1 hj).1
      simp at this; omega

theorem RI.step {i : Nat} (I : RI v) (J : VI true v) (A : v.c.IA true) (hc : o.cnt = true) (hf : o.fail = true)
    (e : v.step o i = .ok v') (ec : v.c.step i = .ok v'.c) : RI v' := by
  obtain ⟨c2, e2, A', ge⟩ := A.step (i := i)
  rw [ec] at e2; cases e2
  rcases VStp.of A.bi e with ⟨_, rfl⟩ | ⟨cl, cl', push, U, R, N, V, S⟩
  · exact I
  · refine I.push (I.pend.step hf A.bi A.gf ge e) S.log (by simp) (by simp) (by simp) (fun e ev b s h1 h2 h3 D => ?_) ?_ ?_
    · exact D.step S hc A.bi A'.bi A.gf I.pend ge (J.inf e ev b s h1 h2 fun _ => I.gm ev (List.mem_of_getElem? h1) h3)
    · intro b s _ h; cases h
    · intro e ev b s _ _ _ _ _ h; cases h

theorem RI.start {op : Op α} {X : View} (I : RI v) (e : v.start op X = some v') (ec : v.c.start op = some v'.c) : RI v' := by
  have S : VSta true v v' := .of e
  refine ⟨I.pend.start e ec, by rw [S.log]; exact I.gm, fun i ev b s hi => ?_, ?_⟩
  · rw [S.log] at hi
    exact fun h1 h2 => (I.rd i ev b s hi h1 h2).start e ec
  · rw [S.log]; exact I.ord

theorem RI.read {k j : Nat} {X : View} (I : RI v) (A : v.c.IA true) (e : v.read k j X = some v') : RI v' := by
  simp only [VConf.read] at e
  split at e
  · cases e
  next en hk =>
  split at e
  · next b off len hr =>
    split at e
    · next hj =>
      have hc := covers_of (c := v.c) hr hj
      have G : VGrow v v' := by
        cases e
        refine ⟨rfl, rfl, rfl, rfl, rfl, ?_, ?_⟩
        · intro k' e he
          simp only
          split
          · by_cases h : k' = k
            · subst h
              rw [upd_same]
              exact List.mem_cons_of_mem _ (mem_knows.2 (.inr (.inl he)))
            · rw [upd_ne _ _ h]; exact he
          · exact he
        · intro k' e he
          simp only
          split
          · exact he
          · by_cases h : k' = k
            · subst h
              rw [upd_same]
              exact View.mem_join.2 (.inl he)
            · rw [upd_ne _ _ h]; exact he
      cases e
      refine I.push (pre := []) (.grow G rfl I.pend) rfl (fun _ h => by cases h) (fun _ h => by cases h) (fun _ => rfl)
        (fun _ _ _ _ _ _ _ D => .grow G rfl rfl rfl D) ?_ ?_
      · intro b' s hat _
        simp only [Bool.and_eq_true, beq_iff_eq] at hat
        obtain ⟨rfl, rfl⟩ := hat
        refine Rd.read A hk hc ?_ ?_
        · cases hw : Conf.writable en with
          | true =>
            left
            simp only [if_true, upd_same]
            exact List.mem_cons_self ..
          | false =>
            right
            simp only [Bool.false_eq_true, if_false, upd_same]
            exact View.mem_join.2 (.inr (List.mem_cons_self ..))
        · intro hm
          have hw : Conf.writable en = true := by
            obtain ⟨h, m⟩ := en
            simp only at hm; subst hm
            cases h <;> first | rfl | simp [Ent.Covers] at hc
          simp only [hw, if_true, upd_same]
          exact List.mem_cons_self ..
      · intro e ev b s _ _ _ _ _ h; cases h
    · cases e
  · cases e

theorem RI.write {k j : Nat} {x : α} {X : View} (I : RI v) (J : VI true v) (e : v.write k j x X = some (.ok v')) : RI v' := by
  simp only [VConf.write] at e
  split at e
  · cases e
  next en hk =>
  split at e
  · next b off len hr =>
    split at e
    · next hj =>
      obtain ⟨hj, hwr⟩ := hj
      have hc := covers_of (c := v.c) hr hj
      simp only [Option.some.injEq] at e
      obtain ⟨c', e1, e2⟩ := bind_ok e
      cases pure_ok e2
      obtain ⟨s1, s2, s3⟩ := write_same e1
      have s4 : c'.a.guard = v.c.a.guard ∧ c'.a.box = v.c.a.box ∧ c'.a.tgt = v.c.a.tgt := by
        rcases Conf.write_cases e1 with rfl | ⟨b, i, rfl⟩ <;> exact ⟨rfl, rfl, rfl⟩
      refine (fun G => I.push (pre := []) (.grow G s4.2.2 I.pend) rfl (fun _ h => by cases h) (fun _ h => by cases h) (fun h => by cases h)
        (fun _ _ _ _ _ _ _ D => .grow G s4.1 s4.2.1 s4.2.2 D) ?_ ?_) (VGrow.mk (v := v) s1 s2 s3 rfl rfl ?_ fun _ _ h => h)
      · intro b s _ h; cases h
      · intro e' ev b' s h1 h2 h3 D hat hg
        simp only [Bool.and_eq_true, beq_iff_eq] at hat
        obtain ⟨rfl, rfl⟩ := hat
        obtain ⟨h, m⟩ := en
        simp only at hg; subst hg
        rcases hc with ⟨d, g, hd, hc⟩ | ⟨r, hr', hn⟩
        · simp only at hd; subst hd
          exact mem_knows.2 (.inr (.inl (D.ent k d g hk hc)))
        · refine mem_knows.2 (.inr (((J.inf e' ev _ _ h1 h2 fun _ => I.gm ev (List.mem_of_getElem? h1) h3).ent k _ hk ?_).imp id fun h => ⟨rfl, h⟩))
          rw [entT_uniq hr']; simpa [aG] using hn
      · intro k' e he
        by_cases h : k' = k
        · subst h
          simp only [upd_same]
          exact List.mem_cons_of_mem _ (mem_knows.2 (.inr (.inl he)))
        · simp only [upd_ne _ _ h]; exact he
    · cases e
  · cases e

end
end Verif.Arc
