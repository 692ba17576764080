import Verif.Props.ArcContract
/-!
# What a drop of a handle drops
-/

namespace Verif.Arc
open Verif.Spec (Side Slot Family Rng End)
open Verif.Rc
variable {α : Type} {P : Rules α} {zst : Bool} {c c1 c2 c' : Conf α} {W : Nat → Nat → Prop} {a a' : Arena α} {S : Nat → Nat → Prop}

/-- If `d` is a slice, all its items are in `S`. -/
def NodeIn (S : Nat → Nat → Prop) (a : Arena α) (d : Nat) : Prop := d < a.b.sk.next ∧
  (a.b.sk.kind d = .alloc ∨ ∃ b o l, At a d b o l ∧ ∀ j, o ≤ j → j < o + l → S b j)

/-- A drop that drops items in `S` only. -/
def TaskIn (S : Nat → Nat → Prop) (a : Arena α) : ATask → Prop
  | .guard _ => True
  | .slice d _ => NodeIn S a d
  | .base (.dropS d) => NodeIn S a d
  | .base (.dropReg r) => ∀ j, r.off ≤ j → j < r.off + r.len → S r.buf j
  | .base .userCode => ∃ b j, S b j ∧ a.b.slot b j = .dropped
  | .base (.dropRcSlice _ _) => False

theorem NodeIn.mono (B : Base a.b.sk) (e : AEvo a a') {d : Nat} (h : NodeIn S a d) : NodeIn S a' d := by
  refine ⟨Nat.lt_of_lt_of_le h.1 e.evo.next, ?_⟩
  rcases h.2 with h2 | ⟨b, o, l, h2, h3⟩
  · exact .inl (by rw [e.evo.kind d h.1]; exact h2)
  · exact .inr ⟨b, o, l, h2.mono B e, h3⟩

theorem TaskIn.mono (B : Base a.b.sk) (e : AEvo a a') (hs : ∀ b j, a.b.slot b j = .dropped → a'.b.slot b j = .dropped) {t : ATask} (h : TaskIn S a t) :
    TaskIn S a' t := by
  cases t with
  | guard => trivial
  | slice d g => exact NodeIn.mono B e h
  | base t =>
    cases t with
    | dropS d => exact NodeIn.mono B e h
    | dropReg r => exact h
    | userCode => obtain ⟨b, j, h1, h2⟩ := h; exact ⟨b, j, h1, hs b j h2⟩
    | dropRcSlice => exact h

theorem dropStrong_in {T : List AT} {x : Nat} {h' : Heap α} {ts : List Task} (I : HInv a.b T) (h : NodeIn S a x) (e : dropStrong a.b x = .ok (h', ts)) :
    ∀ t ∈ ts, TaskIn S a (.base t) := by
  simp only [dropStrong] at e
  split at e
  · cases e
  · split at e
    · cases e; intro t ht; cases ht
    · split at e
      · cases e
      · next v hv =>
        cases e
        rcases h.2 with h2 | ⟨b, o, l, h2, h3⟩
        · have := I.base.kinds _ _ hv; rw [h2] at this; cases this
        obtain ⟨rfl, rfl, rfl⟩ := h2.is v hv
        have kid : ∀ s c, v.kids s = some c → NodeIn S a c := by
          intro s c hk
          obtain ⟨b', o', l', h4, h5⟩ := kid_half I hv hk
          refine ⟨h4.lt, .inr ⟨b', o', l', h4, fun j h6 h7 => ?_⟩⟩
          rw [half_sub] at h5
          cases h5
          have hL := v.subLen_le s
          refine h3 j ?_ ?_ <;> cases s <;> simp only [DataV.subOff, DataV.subLen, Nat.shiftRight_eq_div_pow] at h6 h7 <;> omega
        intro t ht
        rcases List.mem_append.1 ht with ht | ht
        · rcases List.mem_append.1 ht with ht | ht <;> (obtain ⟨c, hc, rfl⟩ := List.mem_map.1 ht; exact kid _ c (by simpa using hc))
        · simp only [List.mem_singleton] at ht
          subst ht
          intro j h6 h7
          refine h3 j ?_ ?_ <;> simp only [DataV.dropRange] at h6 h7 <;> split at h6 <;> simp_all [DataV.subOff, DataV.subLen, Nat.shiftRight_eq_div_pow] <;> omega
      · next hv => rcases I.only _ _ hv with h | h <;> cases h
      · next hv => rcases I.only _ _ hv with h | h <;> cases h
      · split at e
        · cases e; intro t ht; cases ht
        · split at e
          · cases e; intro t ht; cases ht
          · cases e

theorem TaskIn.step {t : ATask} {new : List ATask} {T : List AT} (I : HInv a.b (ataskT t ++ T)) (ev : AEvo a a')
    (hs : ∀ b j, a.b.slot b j = .dropped → a'.b.slot b j = .dropped) (h : TaskIn S a t)
    (e : ataskStep a t = .ok (a', new)) : ∀ t' ∈ new, TaskIn S a' t' := by
  cases t with
  | base t =>
    obtain ⟨⟨h', ts'⟩, e1, e2⟩ := bind_ok e
    cases pure_ok e2
    cases t with
    | dropS x =>
      intro t' ht'
      obtain ⟨t0, h1, rfl⟩ := List.mem_map.1 ht'
      exact (dropStrong_in I h e1 t0 h1).mono I.base ev hs
    | dropRcSlice d i => exact h.elim
    | userCode => cases e1; intro t ht; cases ht
    | dropReg r =>
      simp only [taskStep] at e1
      split at e1
      · cases e1
        intro t' ht'
        obtain ⟨t0, h1, rfl⟩ := List.mem_map.1 ht'
        obtain ⟨al, h1, rfl⟩ := List.mem_map.1 h1
        have hr := (I.regs r (by simp [ataskT, taskT])).1 al (by simpa using h1)
        exact NodeIn.mono I.base ev ⟨I.base.lt hr, .inl (I.base.kinds _ _ hr)⟩
      · next hl =>
        split at e1
        · cases e1
        · split at e1
          · cases e1
            intro t' ht'
            simp only [List.map_cons, List.map_nil, List.mem_cons, List.not_mem_nil, or_false] at ht'
            rcases ht' with rfl | rfl
            · exact ⟨r.buf, r.off, h r.off (Nat.le_refl _) (by omega), by simp [Arena.withB, Heap.setSlot, upd]⟩
            · exact fun j h1 h2 => h j (by simp only at h1; omega) (by simp only at h2; omega)
          · cases e1
  | slice d g =>
    obtain ⟨⟨h', ts'⟩, e1, e2⟩ := bind_ok e
    cases pure_ok e2
    intro t' ht'
    rcases List.mem_append.1 ht' with ht' | ht'
    · obtain ⟨t0, h1, rfl⟩ := List.mem_map.1 ht'
      exact (dropStrong_in I h e1 t0 h1).mono I.base ev hs
    · simp only [List.mem_singleton] at ht'; subst ht'; trivial
  | guard g =>
    simp only [ataskStep, Arena.dropG] at e
    split at e
    · cases e
    · split at e
      · cases e; simp
      · split at e
        · cases e
        · cases e
          intro t' ht'
          obtain ⟨t0, h1, rfl⟩ := List.mem_map.1 ht'
          trivial

/-- Call `i` does nothing but drop things, and items in `S` only. -/
def Conf.DropsIn (S : Nat → Nat → Prop) (i : Nat) (c : Conf α) : Prop :=
  ∃ cl, c.calls[i]? = some cl ∧ ((∃ r, cl.pc = .done r) ∨ ∃ g, cl.pc = .wd g) ∧ ∀ t ∈ cl.tasks, TaskIn S c.a t

theorem Conf.DropsIn.ev {i : Nat} (B : Base c.a.b.sk) (e : AEvo c.a c'.a) (hs : ∀ b j, c.a.b.slot b j = .dropped → c'.a.b.slot b j = .dropped)
    (hj : ∀ cl, c.calls[i]? = some cl → c'.calls[i]? = some cl) (h : c.DropsIn S i) : c'.DropsIn S i := by
  obtain ⟨cl, h1, h2, h3⟩ := h
  exact ⟨cl, hj cl h1, h2, fun t ht => (h3 t ht).mono B e hs⟩

theorem Conf.DropsIn.run {i : Nat} (hP : PTame P) (hr : Conf.PReach P zst c) (h : c.DropsIn S i) (run : PRun P W c c') : c'.DropsIn S i := by
  induction run with
  | refl => exact h
  | @step c c' r n e ih =>
    have hr := r.reach hr
    have B := hr.BI hP
    have ev : Evol W c c' := .step hP hr e
    have hs : ∀ b j, c.a.b.slot b j = .dropped → c'.a.b.slot b j = .dropped := fun b j h =>
      (C53_gone_for_good hP hr (.step _ _ (by rw [← e]; exact .run c n)) (.inl h)).trans h
    by_cases hni : n = i
    · subst hni
      obtain ⟨cl, h1, h2, h3⟩ := ih
      have hlen := (List.getElem?_eq_some_iff.1 h1).1
      cases CStep.of e with
      | none hc => rw [h1] at hc; cases hc
      | task cl2 t ts a' new hi ht e2 =>
        rw [h1] at hi; cases hi
        have I : HInv c.a.b (ataskT t ++ (ts.flatMap ataskT ++ (pcT cl.pc ++ c.rest n))) := by
          have := B.heap.perm (Conf.T_perm h1)
          simpa [callT, ht] using this
        refine ⟨{ cl with tasks := new ++ ts, out := cl.out ++ [] }, List.getElem?_set_self hlen, h2, fun t' ht' => ?_⟩
        rcases List.mem_append.1 ht' with ht' | ht'
        · exact TaskIn.step I ev.evo hs (h3 t (by rw [ht]; simp)) e2 t' ht'
        · exact (h3 t' (by rw [ht]; simp [ht'])).mono B.heap.base ev.evo hs
      | pc cl2 a' nx hi ht e2 =>
        rw [h1] at hi; cases hi
        refine ⟨{ cl with pc := nx.pc, tasks := nx.tasks, out := cl.out ++ List.range' c.hs.length nx.push.length }, List.getElem?_set_self hlen, ?_⟩
        rcases h2 with ⟨re, h2⟩ | ⟨g, h2⟩
        · rw [h2] at e2; cases e2; exact ⟨.inl ⟨re, rfl⟩, fun t ht => by cases ht⟩
        · rw [h2] at e2
          cases PStep.of e2 with
          | wdN => exact ⟨.inl ⟨_, rfl⟩, fun t ht => by cases ht⟩
          | wd => exact ⟨.inl ⟨_, rfl⟩, fun t ht => by cases ht⟩
    · refine ih.ev B.heap.base ev.evo hs fun cl hj => ?_
      cases CStep.of e with
      | none => exact hj
      | task => exact (List.getElem?_set_ne hni).trans hj
      | pc => exact (List.getElem?_set_ne hni).trans hj
  | @start c c' r op hp e ih =>
    have B := (r.reach hr).BI hP
    have ha := (Conf.start_T e).2
    exact ih.ev B.heap.base (Evol.start (W := W) B.heap.base e).evo (fun b j h => by rw [ha]; exact h) fun cl hj => start_calls_old e hj
  | @write c c' r k en j x hk hw hW e ih =>
    have hr := r.reach hr
    have B := hr.BI hP
    refine ih.ev B.heap.base (Evol.write B.heap.base hW e).evo (fun b j h => ?_) fun cl hj => ?_
    · exact (C53_gone_for_good hP hr (.step _ _ (by rw [← e]; exact .write c k en _ x hk hw)) (.inl h)).trans h
    · rcases Conf.write_cases e with rfl | ⟨b, i, rfl⟩ <;> exact hj
  | @panic c c' r n e ih =>
    have hr := r.reach hr
    have B := hr.BI hP
    have ev : Evol W c c' := .panic hP hr e
    have hs : ∀ b j, c.a.b.slot b j = .dropped → c'.a.b.slot b j = .dropped := fun b j h =>
      (C53_gone_for_good hP hr (.panic _ _ _ e) (.inl h)).trans h
    obtain ⟨cl, rg, ts, ts', us, s, p⟩ := Panicked.of B.heap e
    by_cases hni : n = i
    · subst hni
      obtain ⟨cl2, h1, h2, h3⟩ := ih
      rw [p.call] at h1; cases h1
      have hlen := (List.getElem?_eq_some_iff.1 p.call).1
      have hus : us = [] := by
        have := p.clean
        rcases h2 with ⟨re, h2⟩ | ⟨g, h2⟩ <;> rw [h2] at this <;> cases this; rfl
      refine ⟨{ cl with pc := .done .panic, tasks := .base (.dropReg rg) :: (ts' ++ us) }, by rw [p.eq]; exact List.getElem?_set_self hlen, .inl ⟨_, rfl⟩,
        fun t ht => ?_⟩
      rw [hus, List.append_nil] at ht
      rcases List.mem_cons.1 ht with rfl | ht
      · exact (h3 _ (by rw [p.tasks]; simp)).mono B.heap.base ev.evo hs
      · obtain ⟨t0, k1, k2⟩ := p.uw.mem t ht
        have k3 := (h3 t0 (by rw [p.tasks]; simp [k1])).mono B.heap.base ev.evo hs
        rcases k2 with rfl | ⟨r, rfl, rfl⟩
        · exact k3
        · exact fun j h1 h2 => by simp only at h1 h2; omega
    · exact ih.ev B.heap.base ev.evo hs fun cl hj => by rw [p.eq]; exact (List.getElem?_set_ne hni).trans hj

end Verif.Arc
