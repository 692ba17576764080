import Verif.Arc.Threads
import Verif.Props.ArcDrop
import Verif.Proofs.BinParts
/-!
# Programs made of several calls: what other threads leave alone
-/

namespace Verif.Arc
open Verif.Spec (Side Slot Rng End)
variable {α β γ : Type} {P P' : Rules α} {zst : Bool} {c c1 c2 c' : Conf α} {W : Nat → Nat → Prop} {M : Conf α → Nat → Prop}

namespace Prog

theorem bind_assoc' {δ : Type} (p : Prog α β) (q : β → Prog α γ) (s : γ → Prog α δ) : (p.bind q).bind s = p.bind fun x => (q x).bind s := by
  induction p with
  | ret b => rfl
  | fault f => rfl
  | call op next ih => simp only [bind]; congr 1; funext r ks; exact ih r ks

theorem bind_ret' (p : Prog α β) : p.bind .ret = p := by
  induction p with
  | ret b => rfl
  | fault f => rfl
  | call op next ih => simp only [bind]; congr 1; funext r ks; exact ih r ks

instance : LawfulMonad (Prog α) := LawfulMonad.mk' (Prog α) (fun p => bind_ret' p) (fun _ _ => rfl) (fun p q s => bind_assoc' p q s)

end Prog

theorem PRun.mono (h : ∀ c op, P c op → P' c op) (r : PRun P W c c') : PRun P' W c c' := by
  induction r with
  | refl => exact .refl
  | step r i e ih => exact ih.step i e
  | start r op hp e ih => exact ih.start op (h _ _ hp) e
  | write r k en j x hk hw hW e ih => exact ih.write k en j x hk hw hW e
  | panic r i e ih => exact ih.panic i e

theorem PRun.others (r : PRun (Others P M) W c c') : PRun P W c c' := r.mono fun _ _ h => h.1

/-- A call that takes a handle is a call in flight. -/
theorem start_takes {op : Op α} {k : Nat} (h : op.takes = some k) (e : c.start op = some c') : ∃ cl, c'.calls = c.calls ++ [cl] ∧ cl.op = op := by
  cases SStep.of e <;> first | (cases h; done) | exact ⟨_, rfl, rfl⟩

theorem start_length {op : Op α} (e : c.start op = some c') : (∃ cl, c'.calls = c.calls ++ [cl] ∧ cl.op = op) ∨ c'.calls = c.calls := by
  cases SStep.of e <;> first | exact .inl ⟨_, rfl, rfl⟩ | exact .inr rfl

theorem step_length {i : Nat} (e : c.step i = .ok c') : c'.calls.length = c.calls.length := by
  cases CStep.of e <;> simp [Conf.after]

theorem sees_step (hP : PTame P) (h : Conf.PReach P zst c) {i : Nat} (e : c.step i = .ok c') {k : Nat} {v : Seen} (hk : c.Sees k v) : c'.Sees k v := by
  rcases C55_stays hP h (.step _ _ (e ▸ Conf.Step.run c i)) hk with h1 | ⟨op, h1, h2⟩
  · exact h1
  · obtain ⟨cl, h3, _⟩ := start_takes h1 h2
    have := step_length e
    rw [h3] at this; simp at this

theorem sees_start (hP : PTame P) (h : Conf.PReach P zst c) {op : Op α} (e : c.start op = some c') {k : Nat} (hn : op.takes ≠ some k) {v : Seen}
    (hk : c.Sees k v) : c'.Sees k v := by
  rcases C55_stays hP h (.step _ _ (.start c c' op e)) hk with h1 | ⟨op', h1, h2⟩
  · exact h1
  · obtain ⟨cl, h3, h4⟩ := start_takes h1 h2
    rcases start_length e with ⟨cl', h5, h6⟩ | h5
    · rw [h3] at h5
      have := List.append_cancel_left h5
      cases this
      exact absurd (by rw [← h6, h4, h1]) hn
    · rw [h3] at h5; simp at h5

theorem sees_write (hP : PTame P) (h : Conf.PReach P zst c) {n j : Nat} {en : Ent} {x : α} (hn : c.get n = some en) (hw : Conf.writable en = true)
    (e : c.write en j x = .ok c') {k : Nat} {v : Seen} (hk : c.Sees k v) : c'.Sees k v := by
  rcases C55_stays hP h (.step _ _ (e ▸ Conf.Step.write c n en j x hn hw)) hk with h1 | ⟨op, h1, h2⟩
  · exact h1
  · obtain ⟨cl, h3, _⟩ := start_takes h1 h2
    rcases Conf.write_cases e with rfl | ⟨b, i, rfl⟩ <;> simp at h3

theorem sees_panic (hP : PTame P) (h : Conf.PReach P zst c) {i : Nat} (e : c.panic i = some c') {k : Nat} {v : Seen} (hk : c.Sees k v) : c'.Sees k v := by
  rcases C55_stays hP h (.panic c c' i e) hk with h1 | ⟨op, h1, h2⟩
  · exact h1
  · obtain ⟨cl, h3, _⟩ := start_takes h1 h2
    obtain ⟨cl, r, ts, ts', us, s, p⟩ := Panicked.of (h.BI hP).heap e
    rw [p.eq] at h3
    have := congrArg List.length h3
    simp at this

/-- What is not taken by others stays. -/
theorem PRun.sees (hP : PTame P) (h : Conf.PReach P zst c) (run : PRun (Others P M) W c c') {k : Nat} (hM : ∀ c, M c k) {v : Seen} (hk : c.Sees k v) :
    c'.Sees k v := by
  induction run with
  | refl => exact hk
  | step r i e ih => exact sees_step hP (r.others.reach h) e ih
  | start r op hp e ih => exact sees_start hP (r.others.reach h) e (fun ht => hp.2 k ht (hM _)) ih
  | write r n en j x hn hw _ e ih => exact sees_write hP (r.others.reach h) hn hw e ih
  | panic r i e ih => exact sees_panic hP (r.others.reach h) e ih

theorem sees_get (B : c.BI) {k : Nat} {e : Ent} (h : c.get k = some e) : ∃ v, c.Sees k v := by
  obtain ⟨hh, m⟩ := e
  cases hh with
  | strong d g => obtain ⟨b, o, l, _, h2⟩ := strong_at B h; exact ⟨_, h2⟩
  | weak d g => exact ⟨_, _, h, rfl⟩
  | uniq r => exact ⟨_, _, h, rfl⟩

/-- The handles a call has returned so far. -/
def Conf.outOf (c : Conf α) (i k : Nat) : Prop := ∃ cl, c.calls[i]? = some cl ∧ k ∈ cl.out

/-- The handles that a call has returned are there until the thread uses them. -/
theorem PRun.outs (hP : PTame P) (h : Conf.PReach P zst c) {i : Nat} (run : PRun (Others P M) W c c') (hM : ∀ c k, c.outOf i k → M c k)
    (h0 : ∀ k, c.outOf i k → ∃ v, c.Sees k v) (hi : i < c.calls.length) : ∀ k, c'.outOf i k → ∃ v, c'.Sees k v := by
  have key : i < c'.calls.length ∧ ∀ k, c'.outOf i k → ∃ v, c'.Sees k v := by
    induction run with
    | refl => exact ⟨hi, h0⟩
    | @step c2 c3 r j e ih =>
      have hr := r.others.reach h
      have hr' := hr.run j e
      refine ⟨by rw [step_length e]; exact ih.1, fun k ⟨cl', h1, h2⟩ => ?_⟩
      by_cases hj : j = i
      · subst hj
        obtain ⟨cl, h3⟩ : ∃ cl, c2.calls[j]? = some cl := ⟨_, List.getElem?_eq_getElem ih.1⟩
        rcases C55_delivered e h3 h1 h2 with h4 | ⟨en, h4⟩
        · obtain ⟨v, h5⟩ := ih.2 k ⟨cl, h3, h4⟩
          exact ⟨v, sees_step hP hr e h5⟩
        · exact sees_get (hr'.BI hP) h4
      · have h3 : c2.calls[i]? = some cl' := by
          rw [← h1]
          cases CStep.of e with
          | none _ => rfl
          | task => simp only [Conf.after]; rw [List.getElem?_set_ne hj]
          | pc => simp only [Conf.after]; rw [List.getElem?_set_ne hj]
        obtain ⟨v, h5⟩ := ih.2 k ⟨cl', h3, h2⟩
        exact ⟨v, sees_step hP hr e h5⟩
    | @start c2 c3 r op hp e ih =>
      have hr := r.others.reach h
      have hpre : ∀ cl', c3.calls[i]? = some cl' → c2.calls[i]? = some cl' := by
        intro cl' h1
        rcases start_length e with ⟨cl, h3, _⟩ | h3
        · rw [h3, List.getElem?_append_left ih.1] at h1; exact h1
        · rw [h3] at h1; exact h1
      refine ⟨?_, fun k ⟨cl', h1, h2⟩ => ?_⟩
      · rcases start_length e with ⟨cl, h3, _⟩ | h3
        · rw [h3]; simp; exact Nat.lt_succ_of_lt ih.1
        · rw [h3]; exact ih.1
      · have h3 : c2.outOf i k := ⟨cl', hpre _ h1, h2⟩
        obtain ⟨v, h5⟩ := ih.2 k h3
        exact ⟨v, sees_start hP hr e (fun ht => hp.2 k ht (hM _ _ h3)) h5⟩
    | @write c2 c3 r n en j x hn hw _ e ih =>
      have hr := r.others.reach h
      have hc : c3.calls = c2.calls := by rcases Conf.write_cases e with rfl | ⟨b, i, rfl⟩ <;> rfl
      refine ⟨by rw [hc]; exact ih.1, fun k ⟨cl', h1, h2⟩ => ?_⟩
      rw [hc] at h1
      obtain ⟨v, h5⟩ := ih.2 k ⟨cl', h1, h2⟩
      exact ⟨v, sees_write hP hr hn hw e h5⟩
    | @panic c2 c3 r j e ih =>
      have hr := r.others.reach h
      obtain ⟨cl, rg, ts, ts', us, s, p⟩ := Panicked.of (hr.BI hP).heap e
      have hc : c3.calls = c2.calls.set j { cl with pc := .done .panic, tasks := .base (.dropReg rg) :: (ts' ++ us) } := by rw [p.eq]
      refine ⟨by rw [hc, List.length_set]; exact ih.1, fun k ⟨cl', h1, h2⟩ => ?_⟩
      have h3 : c2.outOf i k := by
        rw [hc] at h1
        by_cases hj : j = i
        · subst hj
          rw [List.getElem?_set_self ih.1] at h1
          cases h1
          exact ⟨cl, p.call, h2⟩
        · rw [List.getElem?_set_ne hj] at h1
          exact ⟨cl', h1, h2⟩
      obtain ⟨v, h5⟩ := ih.2 k h3
      exact ⟨v, sees_panic hP hr e h5⟩
  exact key.2

/-! ## Runs -/

theorem Runs.reach {p : Prog α β} {mine mine' : List Nat} {r : Except Fault β} (run : Runs P W c mine p c' mine' r) (h : Conf.PReach P zst c) :
    Conf.PReach P zst c' := by
  induction run with
  | ret r => exact r.others.reach h
  | fault r => exact r.others.reach h
  | call r0 _ hp hs r1 _ _ _ _ ih => exact ih (r1.others.reach ((r0.others.reach h).start _ hp hs))

theorem Runs.bind {p : Prog α β} {q : β → Prog α γ} {mine mine' : List Nat} {r : Except Fault γ} (run : Runs P W c mine (p.bind q) c' mine' r) :
    (∃ c1 m1 b, Runs P W c mine p c1 m1 (.ok b) ∧ Runs P W c1 m1 (q b) c' mine' r) ∨
    (∃ f, r = .error f ∧ Runs P W c mine p c' mine' (.error f)) := by
  induction p generalizing c mine with
  | ret b => exact .inl ⟨c, mine, b, .ret .refl, run⟩
  | fault f => cases run with | fault r => exact .inr ⟨f, rfl, .fault r⟩
  | call op next ih =>
    cases run with
    | call r0 hon hp hs r1 hi hf hr r2 =>
      rcases ih _ _ r2 with ⟨c1, m1, b, h1, h2⟩ | ⟨f, h1, h2⟩
      · exact .inl ⟨c1, m1, b, .call r0 hon hp hs r1 hi hf hr h1, h2⟩
      · exact .inr ⟨f, h1, .call r0 hon hp hs r1 hi hf hr h2⟩

/-- The thread has exactly these handles, all different, and this is what they show. -/
structure Own (c : Conf α) (mine : List Nat) (X : List (Nat × Seen)) : Prop where
  nodup : (X.map Prod.fst).Nodup
  mem : ∀ k, k ∈ mine ↔ k ∈ X.map Prod.fst
  sees : ∀ k v, (k, v) ∈ X → c.Sees k v

theorem Own.perm {mine : List Nat} {X Y : List (Nat × Seen)} (h : Own c mine X) (p : X.Perm Y) : Own c mine Y :=
  ⟨(p.map Prod.fst).nodup_iff.1 h.nodup, fun k => (h.mem k).trans (p.map Prod.fst).mem_iff, fun k v hm => h.sees k v (p.mem_iff.2 hm)⟩

theorem Own.env (hP : PTame P) (h : Conf.PReach P zst c) {mine : List Nat} {X : List (Nat × Seen)} (o : Own c mine X)
    (r : PRun (Others P fun _ k => k ∈ mine) W c c') : Own c' mine X :=
  ⟨o.nodup, o.mem, fun k v hm => r.sees hP h (fun _ => (o.mem k).2 (List.mem_map_of_mem (f := Prod.fst) hm)) (o.sees k v hm)⟩

end Verif.Arc
