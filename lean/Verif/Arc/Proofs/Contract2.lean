import Verif.Arc.Proofs.Contract
import Verif.Props.ArcUnwind
import Verif.Props.ArcRefuse
/-!
# What the calls return: every execution leads to what is specified
-/

namespace Verif.Arc
open Verif.Spec (Side Slot Family Rng End)
open Verif.Rc
variable {α : Type} {P : Rules α} {zst : Bool} {c c0 c1 c2 c' : Conf α} {W : Nat → Nat → Prop}
  {R : (Nat → Nat → Slot α) → Res α → List Seen → Prop}

theorem PRun.reach (r : PRun P W c c') (h : Conf.PReach P zst c) : Conf.PReach P zst c' := by
  induction r with
  | refl => exact h
  | step r i e ih => exact ih.run i e
  | start r op hp e ih => exact ih.start op hp e
  | write r k en j x hk hw _ e ih => exact ih.write k en j x hk hw e
  | panic r i e ih => exact ih.panic i e

theorem PRun.trans (r : PRun P W c c') (r' : PRun P W c' c2) : PRun P W c c2 := by
  induction r' with
  | refl => exact r
  | step r i e ih => exact ih.step i e
  | start r op hp e ih => exact ih.start op hp e
  | write r k en j x hk hw hW e ih => exact ih.write k en j x hk hw hW e
  | panic r i e ih => exact ih.panic i e

/-- What a moment does to memory and handles. -/
structure Evol (W : Nat → Nat → Prop) (c c' : Conf α) : Prop where
  evo : AEvo c.a c'.a
  slot : SEvo W c.a.b.slot c'.a.b.slot
  len : c.hs.length ≤ c'.hs.length
  get : ∀ k e, k < c.hs.length → c'.get k = some e → ∃ e', c.get k = some e' ∧ e'.h = e.h

theorem Evol.refl (B : Base c.a.b.sk) : Evol W c c := ⟨.refl B, .refl _, Nat.le_refl _, fun _ e _ h => ⟨e, h, rfl⟩⟩

theorem Evol.step (hP : PTame P) (h : Conf.PReach P zst c) {i : Nat} (e : c.step i = .ok c') : Evol W c c' := by
  obtain ⟨c3, e3, _, ge⟩ := (h.IA' hP).step (i := i)
  rw [e] at e3; cases e3
  refine ⟨ge.evo, fun b j => ?_, step_len e, fun k en hl hk => ⟨en, step_get_back e hl hk, rfl⟩⟩
  rcases C53_once hP h e b j with h1 | ⟨h1, _, x, _, _, _, _, h2⟩ | ⟨⟨x, h1⟩, h2, _⟩ | ⟨_, _, x, _, _, _, _, h1, h2, _⟩
  · exact .inl h1
  · exact .inr (.inl ⟨h1, x, h2⟩)
  · exact .inr (.inr (.inl ⟨x, h1, .inl h2⟩))
  · exact .inr (.inr (.inl ⟨x, h1, .inr h2⟩))

theorem Evol.start (B : Base c.a.b.sk) {op : Op α} (e : c.start op = some c') : Evol W c c' := by
  have ha := (Conf.start_T e).2
  refine ⟨by rw [ha]; exact .refl B, by rw [ha]; exact .refl _, start_len (.of e), fun k en hl hk => start_get_back e hl hk⟩

theorem Evol.write (B : Base c.a.b.sk) {en : Ent} {j : Nat} {x : α}
    (hW : ∀ b off len, Conf.range c.a en.h = .ok (some (b, off, len)) → j < len → W b (off + j)) (e : c.write en j x = .ok c') : Evol W c c' := by
  rcases Conf.write_eq e with rfl | ⟨b, off, len, h', h1, h2, h3, rfl⟩
  · exact .refl B
  · simp only [writeItem] at h3
    split at h3
    · cases h3
    · split at h3
      · next y hy =>
        cases h3
        refine ⟨⟨.refl B, fun _ _ => rfl⟩, fun b' i => ?_, Nat.le_refl _, fun _ e _ h => ⟨e, h, rfl⟩⟩
        by_cases hb : b' = b ∧ i = off + j
        · obtain ⟨rfl, rfl⟩ := hb
          refine .inr (.inr (.inr ⟨hW _ _ _ h1 h2, by rw [hy]; simp, ?_⟩))
          simp [Arena.withB, Heap.setSlot, upd]
        · refine .inl ?_
          show upd c.a.b.slot b (upd (c.a.b.slot b) (off + j) (.live x)) b' i = _
          by_cases hb' : b' = b
          · subst hb'
            rw [upd_same]
            exact if_neg fun h => hb ⟨rfl, h⟩
          · simp [upd, hb']
      · cases h3

theorem Evol.panic (hP : PTame P) (h : Conf.PReach P zst c) {i : Nat} (e : c.panic i = some c') : Evol W c c' := by
  have B := h.BI hP
  obtain ⟨cl, r, ts, ts', us, s, p⟩ := Panicked.of B.heap e
  refine ⟨(p.gevo B.heap.base).evo, fun b j => ?_, by rw [p.eq]; exact Nat.le_refl _, fun k en hl hk => ⟨en, by rw [← p.get k]; exact hk, rfl⟩⟩
  have es : c'.a.b.slot = s := by rw [p.eq]; rfl
  rw [es]
  rcases p.lost.slot b j with h1 | ⟨⟨x, h1⟩, h2⟩
  · exact .inl h1
  · exact .inr (.inr (.inl ⟨x, h1, .inr h2⟩))

/-- What can be seen of handles `m, m + 1, …`, if they are still there. -/
def Shown (c : Conf α) (m : Nat) (vs : List Seen) : Prop :=
  m + vs.length ≤ c.hs.length ∧ ∀ i v, vs[i]? = some v → ∀ e, c.get (m + i) = some e → Good c.a e.h v

theorem Shown.ev (B : Base c.a.b.sk) (ev : Evol W c c') {m : Nat} {vs : List Seen} (h : Shown c m vs) : Shown c' m vs := by
  refine ⟨Nat.le_trans h.1 ev.len, fun i v hv e he => ?_⟩
  have hl := (List.getElem?_eq_some_iff.1 hv).1
  obtain ⟨e', h1, h2⟩ := ev.get (m + i) e (by have := h.1; omega) he
  rw [← h2]
  exact (h.2 i v hv e' h1).mono B ev.evo

theorem Fits.shown {hs : List (Option Ent)} : ∀ {es : List Ent} {vs : List Seen} {c : Conf α}, Fits c.a es vs → c.hs = hs ++ es.map some →
    es.length = vs.length ∧ Shown c hs.length vs := by
  have key : ∀ {es : List Ent} {vs : List Seen} {a : Arena α}, Fits a es vs → es.length = vs.length ∧
      ∀ (i : Nat) (e : Ent) (v : Seen), es[i]? = some e → vs[i]? = some v → Good a e.h v := by
    intro es
    induction es with
    | nil => intro vs a h; cases vs with
      | nil => exact ⟨rfl, fun i e v h => by simp at h⟩
      | cons => exact False.elim h
    | cons e es ih => intro vs a h; cases vs with
      | nil => exact False.elim h
      | cons v vs =>
        obtain ⟨h1, h2⟩ := ih h.2
        refine ⟨by simp [h1], fun i e' v' he hv => ?_⟩
        cases i with
        | zero => simp at he hv; subst he hv; exact h.1
        | succ i => exact h2 i e' v' (by simpa using he) (by simpa using hv)
  intro es vs c h e
  obtain ⟨h1, h2⟩ := key h
  refine ⟨h1, by rw [e]; simp [h1], fun i v hv en hg => ?_⟩
  simp only [Conf.get, e] at hg
  rw [List.getElem?_append_right (Nat.le_add_right ..), Nat.add_sub_cancel_left, List.getElem?_map] at hg
  cases hi : es[i]? with
  | none => rw [hi] at hg; cases hg
  | some e' => rw [hi] at hg; cases hg; exact h2 i _ v hi hv

/-- Call `j` is on its way to a result in `R`, or has got there. -/
def Will (W : Nat → Nat → Prop) (R : (Nat → Nat → Slot α) → Res α → List Seen → Prop) (n j : Nat) (op : Op α) (c : Conf α) : Prop :=
  n ≤ c.hs.length ∧ ∃ cl, c.calls[j]? = some cl ∧ cl.op = op ∧ ((cl.pc.isDone = false ∧ cl.out = [] ∧ Lds W R c.a cl.pc) ∨
    ∃ r vs m, cl.pc = .done r ∧ R c.a.b.slot r vs ∧ n ≤ m ∧ cl.out = List.range' m vs.length ∧ Shown c m vs ∧ (op.drops = true → vs = [] ∨ cl.tasks = []))

/-- Moments in which the call itself does nothing. -/
theorem Will.ev {n j : Nat} {op : Op α} (hR : Mono W R) (B : Base c.a.b.sk) (ev : Evol W c c') (h : Will W R n j op c)
    (hj : ∀ cl, c.calls[j]? = some cl → c'.calls[j]? = some cl) : Will W R n j op c' := by
  obtain ⟨h0, cl, h1, h2, h3⟩ := h
  refine ⟨Nat.le_trans h0 ev.len, cl, hj cl h1, h2, ?_⟩
  rcases h3 with ⟨h3, h4, h5⟩ | ⟨r, vs, m, h3, h4, h5, h6, h7, h8⟩
  · exact .inl ⟨h3, h4, h5.mono hR B ev.evo ev.slot⟩
  · exact .inr ⟨r, vs, m, h3, hR _ _ _ _ ev.slot h4, h5, h6, h7.ev B ev, h8⟩

theorem Will.step {n j i : Nat} {op : Op α} (hR : Mono W R) (hP : PTame P) (hr : Conf.PReach P zst c) (h : Will W R n j op c) (e : c.step i = .ok c') :
    Will W R n j op c' := by
  have A := hr.IA' hP
  have B := A.bi
  have B' := (hr.run i e).BI hP
  have ev : Evol W c c' := .step hP hr e
  cases CStep.of e with
  | none _ => exact h
  | task cl t ts a' new hi ht e2 =>
    by_cases hij : i = j
    · subst hij
      obtain ⟨h0, cl1, h1, h2, h3⟩ := h
      rw [hi] at h1; cases h1
      have hlen := (List.getElem?_eq_some_iff.1 hi).1
      refine ⟨Nat.le_trans h0 ev.len, { cl with tasks := new ++ ts, out := cl.out ++ [] }, List.getElem?_set_self hlen, h2, ?_⟩
      rcases h3 with ⟨h3, h4, h5⟩ | ⟨r, vs, m, h3, h4, h5, h6, h7, h8⟩
      · exact .inl ⟨h3, by simp [h4], h5.mono hR B.heap.base ev.evo ev.slot⟩
      · exact .inr ⟨r, vs, m, h3, hR _ _ _ _ ev.slot h4, h5, by simp [h6], h7.ev B.heap.base ev, fun hd => (h8 hd).imp id fun h => by rw [ht] at h; cases h⟩
    · exact h.ev hR B.heap.base ev fun cl hj => (List.getElem?_set_ne hij).trans hj
  | pc cl a' nx hi ht e2 =>
    by_cases hij : i = j
    · subst hij
      obtain ⟨h0, cl1, h1, h2, h3⟩ := h
      rw [hi] at h1; cases h1
      have hlen := (List.getElem?_eq_some_iff.1 hi).1
      have I : HInv c.a.b (pcT cl.pc ++ c.rest i) := by
        have := B.heap.perm (Conf.T_perm hi)
        simpa [callT, ht] using this
      refine ⟨Nat.le_trans h0 ev.len, { cl with pc := nx.pc, tasks := nx.tasks, out := cl.out ++ List.range' c.hs.length nx.push.length },
        List.getElem?_set_self hlen, h2, ?_⟩
      rcases h3 with ⟨h3, h4, h5⟩ | ⟨r, vs, m, h3, h4, h5, h6, h7, h8⟩
      · rcases h5.step hR I B'.heap.base ev.evo ev.slot (B.calls i cl hi).1 (.of e2) h3 with ⟨k1, k2, k3⟩ | ⟨r, vs, k1, k2, k3, k4⟩
        · exact .inl ⟨k3, by simp [h4, k1], k2⟩
        · obtain ⟨k5, k6⟩ := Fits.shown (hs := c.hs) (c := c.after i a' { cl with pc := nx.pc, tasks := nx.tasks } nx.push) k3 rfl
          refine .inr ⟨r, vs, c.hs.length, k1, k2, h0, by simp [h4, k5], k6, fun hd => ?_⟩
          rcases k4 with k4 | k4 | ⟨en, w, k4⟩
          · rw [k4] at k5; exact .inl (List.length_eq_zero_iff.1 k5.symm)
          · exact .inr k4
          · have := hr.nxtOp hP i cl hi
            simp only [nxtOp, k4] at this
            obtain ⟨k, hk⟩ := this
            rw [← h2, hk] at hd; cases hd
      · rw [h3] at e2; cases e2
        refine .inr ⟨r, vs, m, rfl, h4, h5, by simp [h6], h7.ev B.heap.base ev, fun _ => .inr rfl⟩
    · exact h.ev hR B.heap.base ev fun cl hj => (List.getElem?_set_ne hij).trans hj

theorem Will.panic {n j i : Nat} {op : Op α} (hR : Mono W R) (hp : op.drops = true → ∀ s, R s .panic []) (hP : PTame P) (hr : Conf.PReach P zst c)
    (h : Will W R n j op c) (e : c.panic i = some c') : Will W R n j op c' := by
  have B := hr.BI hP
  have ev : Evol W c c' := .panic hP hr e
  obtain ⟨cl, r, ts, ts', us, s, p⟩ := Panicked.of B.heap e
  by_cases hij : i = j
  · subst hij
    obtain ⟨h0, cl1, h1, h2, h3⟩ := h
    rw [p.call] at h1; cases h1
    have hlen := (List.getElem?_eq_some_iff.1 p.call).1
    have hd : op.drops = true := by
      rcases C54_where hP hr p.call (by rw [p.tasks]; simp) with ⟨k, h4⟩ | ⟨k, h4⟩ <;> rw [← h2, h4] <;> rfl
    have ho : cl.out = [] := by
      rcases h3 with ⟨_, h4, _⟩ | ⟨r, vs, m, h3, h4, h5, h6, h7, h8⟩
      · exact h4
      · rcases h8 hd with h8 | h8
        · simp [h6, h8]
        · rw [p.tasks] at h8; cases h8
    refine ⟨Nat.le_trans h0 ev.len, { cl with pc := .done .panic, tasks := .base (.dropReg r) :: (ts' ++ us) }, ?_, h2, .inr ⟨.panic, [], n, rfl, hp hd _,
      Nat.le_refl _, by simp [ho], ⟨Nat.le_trans h0 ev.len, fun i v hv => by simp at hv⟩, fun _ => .inl rfl⟩⟩
    rw [p.eq]; exact List.getElem?_set_self hlen
  · exact h.ev hR B.heap.base ev fun cl hj => by rw [p.eq]; exact (List.getElem?_set_ne hij).trans hj

theorem Will.run {n j : Nat} {op : Op α} (hR : Mono W R) (hp : op.drops = true → ∀ s, R s .panic []) (hP : PTame P) (hr : Conf.PReach P zst c)
    (h : Will W R n j op c) (run : PRun P W c c') : Will W R n j op c' := by
  induction run with
  | refl => exact h
  | step r i e ih => exact ih.step hR hP (r.reach hr) e
  | start r op hp e ih =>
    have B := (r.reach hr).BI hP
    exact ih.ev hR B.heap.base (.start B.heap.base e) fun cl hj => start_calls_old e hj
  | write r k en j x hk hw hW e ih =>
    have B := (r.reach hr).BI hP
    refine ih.ev hR B.heap.base (.write B.heap.base hW e) fun cl hj => ?_
    rcases Conf.write_cases e with rfl | ⟨b, i, rfl⟩ <;> exact hj
  | panic r i e ih => exact ih.panic hR hp hP (r.reach hr) e

end Verif.Arc
