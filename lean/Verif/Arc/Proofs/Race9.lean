import Verif.Arc.Proofs.Race8
/-!
# The order of accesses in all executions
-/

namespace Verif.Arc
open Verif.Spec (Side Slot Family Rng End)
open Verif.Rc
variable {α : Type}

/-- All accesses so far are known to those who could make a conflicting one, and each of them knew of all
conflicting ones before, except for reads before writes through the result of `get_mut`. If `w` is set
then `WeakSlice`s may be upgraded, and accesses after writes through the result of `get_mut` are left out. -/
structure VI (w : Bool) (v : VConf α) : Prop where
  inf : ∀ (i : Nat) ev b s, v.log[i]? = some ev → ev.at_ b s = true → (w = true → ev.gm = false) → Inf w v i ev.wr b s
  ord : ∀ (i j : Nat) ev f b s, i < j → v.log[i]? = some ev → v.log[j]? = some f → ev.at_ b s = true → f.at_ b s = true →
    (w = true → ev.gm = false) → (ev.wr = true ∨ f.wr = true) → (f.gm = false ∨ ev.wr = true) → i ∈ f.view

section
variable {v v' : VConf α} {w : Bool}

theorem append_calls {β : Type} {l pre : List β} {i : Nat} {x y : β} (h : (l ++ (pre ++ [x]))[i]? = some y) :
    l[i]? = some y ∨ y ∈ pre ∨ i = l.length + pre.length ∧ y = x := by
  rw [← List.append_assoc] at h
  rcases append_call h with h | ⟨h1, h2⟩
  · by_cases hlt : i < l.length
    · rw [List.getElem?_append_left hlt] at h; exact .inl h
    · rw [List.getElem?_append_right (by omega)] at h; exact .inr (.inl (List.mem_of_getElem? h))
  · exact .inr (.inr ⟨by simpa using h1, h2⟩)

/-- One more access to items. -/
theorem VI.push (I : VI w v) {pre : List Ev} {new : Ev} (hl : v'.log = v.log ++ (pre ++ [new])) (hp : ∀ p ∈ pre, p.at_ = fun _ _ => false)
    (old : ∀ e wr b s, Inf w v e wr b s → Inf w v' e wr b s)
    (fresh : ∀ b s, new.at_ b s = true → (w = true → new.gm = false) → Inf w v' (v.log.length + pre.length) new.wr b s)
    (ord : ∀ e wr b s, Inf w v e wr b s → new.at_ b s = true → (wr = true ∨ new.wr = true) →
      (new.gm = false ∨ wr = true) → e ∈ new.view) : VI w v' := by
  constructor
  · intro i ev b s hi ha hg
    rw [hl] at hi
    rcases append_calls hi with h | h | ⟨rfl, rfl⟩
    · exact old _ _ _ _ (I.inf i ev b s h ha hg)
    · simp [hp ev h] at ha
    · exact fresh b s ha hg
  · intro i j ev f b s hij hi hj ha hf hg hw hw'
    rw [hl] at hi hj
    rcases append_calls hi with hi' | hi' | ⟨rfl, rfl⟩
    · rcases append_calls hj with hj' | hj' | ⟨rfl, rfl⟩
      · exact I.ord i j ev f b s hij hi' hj' ha hf hg hw hw'
      · simp [hp f hj'] at hf
      · exact ord i ev.wr b s (I.inf i ev b s hi' ha hg) hf hw hw'
    · simp [hp ev hi'] at ha
    · have := (List.getElem?_eq_some_iff.1 hj).1
      simp at this; omega

theorem VI.same (I : VI w v) (hl : v'.log = v.log) (old : ∀ e wr b s, Inf w v e wr b s → Inf w v' e wr b s) : VI w v' := by
  constructor
  · intro i ev b s hi ha hg
    rw [hl] at hi
    exact old _ _ _ _ (I.inf i ev b s hi ha hg)
  · rw [hl]; exact I.ord

theorem VI.step {o : Ords} {i : Nat} {b : Bool} (I : VI w v) (A : v.c.IA b) (hu : w = true ∨ ∀ (i : Nat) cl d, v.c.calls[i]? = some cl → cl.pc ≠ .up d)
    (e : v.step o i = .ok v') (ec : v.c.step i = .ok v'.c) : VI w v' := by
  obtain ⟨c2, e2, B', ev⟩ := A.bi.step (A.ph.fgSafe A.bi i)
  rw [ec] at e2; cases e2
  rcases VStp.of A.bi e with ⟨_, rfl⟩ | ⟨cl, cl', push, U, R, N, V, S⟩
  · exact I
  · have hb : ∀ (j : Nat) clj k, v.c.calls[j]? = some clj → clj.borrow = some k → k < v.c.hs.length :=
      fun j clj k h1 h2 => (A.ph.bor j clj k h1 h2).1
    refine I.push S.log (by simp) (fun e wr b s F => S.inf A.bi B' ev.evo hb (hu.imp id fun h d => h i cl d S.hi) F) ?_ ?_
    · intro b s ht _
      exact S.fresh A.bi B' ev.evo hb ht
    · intro e wr b s F ht _ _
      exact S.before A.bi B' ev.evo F ht

theorem VI.start {op : Op α} {X : View} (I : VI w v) (e : v.start op X = some v') : VI w v' := by
  have S : VSta w v v' := .of e
  exact I.same S.log fun _ _ _ _ F => S.inf F

theorem writable_uniq {en : Ent} {r : Reg} (h : en.h = .uniq r) : Conf.writable en = true := by simp [Conf.writable, h]

theorem VI.read {k j : Nat} {X : View} (I : VI w v) (B : v.c.BI) (e : v.read k j X = some v') : VI w v' := by
  simp only [VConf.read] at e
  split at e
  · cases e
  next en hk =>
  split at e
  · next b off len hr =>
    split at e
    · next hj =>
      have hc := covers_of (c := v.c) hr hj
      cases e
      refine I.push (pre := []) rfl (fun _ h => by cases h) (fun _ _ _ _ F => VGrow.inf (v := v) ⟨rfl, rfl, rfl, rfl, rfl, ?_, ?_⟩ F) ?_ ?_
      · intro k' e he
        simp only
        split
        · by_cases h : k' = k
          · subst h
            rw [upd_same]
            exact List.mem_cons_of_mem _ (mem_knows.2 (.inr (.inl he)))
          · rw [upd_ne _ _ h]; exact he
        · exact he
      · intro k' e he
        simp only
        split
        · exact he
        · by_cases h : k' = k
          · subst h
            rw [upd_same]
            exact View.mem_join.2 (.inl he)
          · rw [upd_ne _ _ h]; exact he
      · intro b' s hat _
        simp only [Bool.and_eq_true, beq_iff_eq] at hat
        obtain ⟨rfl, rfl⟩ := hat
        refine Inf.read B hk hc ?_
        cases hw : Conf.writable en with
        | true =>
          left
          simp only [if_true, upd_same]
          exact List.mem_cons_self ..
        | false =>
          right
          simp only [Bool.false_eq_true, if_false, upd_same]
          exact View.mem_join.2 (.inr (List.mem_cons_self ..))
      · intro e wr b' s F hat hww _
        simp only [Bool.and_eq_true, beq_iff_eq] at hat
        obtain ⟨rfl, rfl⟩ := hat
        have hwr : wr = true := by simpa using hww
        rcases hc with ⟨d, g, hd, hc⟩ | ⟨r, hr', hn⟩
        · exact mem_knows.2 (.inr (.inl (F.kent hwr k en d hk (by rw [hd]; rfl) hc)))
        · refine mem_knows.2 (.inr ((F.ent k en hk ?_).imp id fun h => ⟨writable_uniq hr', h⟩))
          rw [entT_uniq hr']; simpa [aG] using hn
    · cases e
  · cases e

theorem write_same {c c' : Conf α} {en : Ent} {j : Nat} {x : α} (h : c.write en j x = .ok c') :
    c'.a.b.sk = c.a.b.sk ∧ c'.hs = c.hs ∧ c'.calls = c.calls := by
  rcases Conf.write_cases h with rfl | ⟨b, i, rfl⟩
  · exact ⟨rfl, rfl, rfl⟩
  · exact ⟨rfl, rfl, rfl⟩

theorem VI.write {k j : Nat} {x : α} {X : View} (I : VI w v) (A : v.c.IA (!w)) (e : v.write k j x X = some (.ok v')) : VI w v' := by
  simp only [VConf.write] at e
  split at e
  · cases e
  next en hk =>
  split at e
  · next b off len hr =>
    split at e
    · next hj =>
      obtain ⟨hj, hwr⟩ := hj
      have hc := covers_of (c := v.c) hr hj
      simp only [Option.some.injEq] at e
      obtain ⟨c', e1, e2⟩ := bind_ok e
      cases pure_ok e2
      obtain ⟨s1, s2, s3⟩ := write_same e1
      have A' := A.write hk e1
      have hk' : c'.get k = some en := by simp only [Conf.get, s2]; exact hk
      have hc' : en.Covers c' b (off + j) := by simp only [Ent.Covers, s1]; exact hc
      refine I.push (pre := []) rfl (fun _ h => by cases h) (fun _ _ _ _ F => VGrow.inf (v := v) ⟨s1, s2, s3, rfl, rfl, ?_, fun _ _ h => h⟩ F) ?_ ?_
      · intro k' e he
        by_cases h : k' = k
        · subst h
          simp only [upd_same]
          exact List.mem_cons_of_mem _ (mem_knows.2 (.inr (.inl he)))
        · simp only [upd_ne _ _ h]; exact he
      · intro b' s hat hg
        simp only [Bool.and_eq_true, beq_iff_eq] at hat
        obtain ⟨rfl, rfl⟩ := hat
        rcases hc' with ⟨d, g, hd, hc'⟩ | ⟨r, hr', hn⟩
        · obtain ⟨h, m⟩ := en
          simp only at hd; subst hd
          simp only [Conf.writable] at hwr; subst hwr
          cases w with
          | true => cases hg rfl
          | false =>
            refine Inf.writeM A' hk' hc' ?_
            simp only [upd_same]
            exact List.mem_cons_self ..
        · refine Inf.writeU A'.bi hk' hr' hn (.inl ?_)
          simp only [upd_same]
          exact List.mem_cons_self ..
      · intro e wr b' s F hat _ hgm
        simp only [Bool.and_eq_true, beq_iff_eq] at hat
        obtain ⟨rfl, rfl⟩ := hat
        rcases hc with ⟨d, g, hd, hc⟩ | ⟨r, hr', hn⟩
        · obtain ⟨h, m⟩ := en
          simp only at hd; subst hd
          simp only [Conf.writable] at hwr; subst hwr
          refine mem_knows.2 (.inr (.inl (F.kent ?_ k _ d hk rfl hc)))
          rcases hgm with h | h
          · cases h
          · exact h
        · refine mem_knows.2 (.inr ((F.ent k en hk ?_).imp id fun h => ⟨rfl, h⟩))
          rw [entT_uniq hr']; simpa [aG] using hn
    · cases e
  · cases e

end
end Verif.Arc
