import Verif.Arc.Proofs.Phase
import Verif.Arc.Spec
/-!
# Reachable configurations

The invariants hold whenever no `WeakSlice` is upgraded while `into_mut` is running on something larger.
-/

namespace Verif.Arc
open Verif.Spec (Side Slot Family Rng End)
open Verif.Rc
variable {α : Type}

section
variable {c c' : Conf α}

theorem Conf.PH.fgSafe {b : Bool} (H : c.PH b) (B : c.BI) (i : Nat) : c.FgSafe i := by
  intro cl c0 todo g r acc hi _ hp
  exact (H.win i cl c0 hi (by rw [hp]; exact mem_winL.2 (List.mem_cons_self ..))).strong B.heap

theorem start_len {op : Op α} (h : SStep c op c') : c.hs.length ≤ c'.hs.length := by
  cases h <;> simp [Conf.plain, Conf.shared, Conf.taking]

theorem Conf.PH.start {b : Bool} {op : Op α} (H : c.PH b) (B : c.BI) (h : c.start op = some c') : c'.PH b := by
  obtain ⟨p, ea⟩ := Conf.start_T h
  have hs := SStep.of h
  have newcall : ∀ {j : Nat} {cl : Call α}, c'.calls[j]? = some cl → c.calls[j]? = some cl ∨
      (winL b cl.pc = [] ∧ ¬ past cl.pc ∧ (∀ d g, cl.pc ≠ .gm4 d g ∧ cl.pc ≠ .im2 d g) ∧
        ∀ k, cl.borrow = some k → k < c'.hs.length ∧ ∀ d g, c'.get k ≠ some ⟨.strong d g, true⟩) := by
    intro j cl hj
    rcases start_call hs hj with h | ⟨_, _, _, h⟩
    · exact .inl h
    · refine .inr ?_
      rcases h with ⟨_, hp, ht, hb⟩ | ⟨_, hp, ht, hb⟩ | ⟨k, d, g, hk, hb, hk', ht, hp⟩ | ⟨k, d, g, b, hk, hb, hk', ht, hp⟩ |
        ⟨k, d, g, hk, _, hb, _, hp⟩ | ⟨k, d, g, b, hk, _, hb, _, _, hp, ht⟩ | ⟨k, r, b, hk, _, hb, _, hp⟩
      · rw [hp]; exact ⟨rfl, id, by simp, by simp [hb]⟩
      · rw [hp]; exact ⟨rfl, id, by simp, by simp [hb]⟩
      · have h1 : ∀ k', cl.borrow = some k' → k' < c'.hs.length ∧ ∀ d g, c'.get k' ≠ some ⟨.strong d g, true⟩ := by
          intro k' hb'; rw [hb] at hb'; cases hb'
          exact ⟨c'.get_lt hk', by simp [hk']⟩
        rcases hp with ⟨_, hp⟩ | ⟨s, _, hp⟩ | ⟨_, hp⟩ <;> rw [hp] <;> exact ⟨rfl, id, by simp, h1⟩
      · have h1 : ∀ k', cl.borrow = some k' → k' < c'.hs.length ∧ ∀ d g, c'.get k' ≠ some ⟨.strong d g, true⟩ := by
          intro k' hb'; rw [hb] at hb'; cases hb'
          exact ⟨c'.get_lt hk', by simp [hk']⟩
        rcases hp with ⟨_, hp⟩ | ⟨_, hp⟩ <;> rw [hp] <;> exact ⟨rfl, id, by simp, h1⟩
      · rcases hp with ⟨_, hp, ht⟩ | ⟨_, hp, ht⟩ | ⟨_, hp, ht⟩ <;> rw [hp] <;> exact ⟨rfl, id, by simp, by simp [hb]⟩
      · rw [hp]; exact ⟨rfl, id, by simp, by simp [hb]⟩
      · rcases hp with ⟨_, hp, ht⟩ | ⟨_, _, hp, ht⟩ | ⟨_, _, hp, ht⟩ | ⟨_, _, _, hp, ht⟩ | ⟨_, hp, ht⟩ <;> rw [hp] <;> exact ⟨rfl, id, by simp, by simp [hb]⟩
  have getm : ∀ {k d g}, c'.get k = some ⟨.strong d g, true⟩ → c.get k = some ⟨.strong d g, true⟩ := by
    intro k d g hk
    rcases start_get hs hk with h | ⟨_, _, h⟩ | ⟨_, _, _, _, h⟩
    · exact h
    · cases h
    · cases h
  refine ⟨fun i cl d g hi hp => ?_, fun i cl d hi hd => ?_, fun hbt k d g hk => ?_, fun i cl k hi hb => ?_⟩
  · rcases newcall hi with hi | ⟨_, _, h, _⟩
    · obtain ⟨h1, h2⟩ := H.mid i cl d g hi hp
      refine ⟨by rw [ea]; exact h1.perm p.symm, fun j clj g' hj hb hpa => ?_⟩
      rcases newcall hj with hj | ⟨_, h, _⟩
      · have hf : clj.fin = false := by
          cases hf : clj.fin with
          | false => rfl
          | true => obtain ⟨r, h3, _⟩ := fin_pc hf; rw [h3] at hpa; exact hpa.elim
        rcases start_bh hs hj hf with h3 | h3
        · exact past_bh (B.calls j clj hj).1 hpa h3
        · rw [h3] at hb; exact h2 j clj g' hj hb hpa
      · exact h hpa
    · rcases hp with ⟨_, hp⟩ | hp
      · exact absurd hp (h d g).1
      · exact absurd hp (h d g).2
  · rcases newcall hi with hi | ⟨h, _⟩
    · rw [ea]; exact (H.win i cl d hi hd).perm p.symm
    · rw [h] at hd; cases hd
  · rw [ea]; exact (H.ent hbt k d g (getm hk)).perm p.symm
  · rcases newcall hi with hi | ⟨_, _, _, h⟩
    · obtain ⟨h1, h2⟩ := H.bor i cl k hi hb
      exact ⟨Nat.lt_of_lt_of_le h1 (start_len hs), fun d g hk => h2 d g (getm hk)⟩
    · exact h k hb

theorem Conf.PH.write {b0 : Bool} {e : Ent} {j : Nat} {x : α} (H : c.PH b0) (h : c.write e j x = .ok c') : c'.PH b0 := by
  rcases Conf.write_cases h with rfl | ⟨b, i0, rfl⟩
  · exact H
  · exact ⟨H.mid, fun i cl d hi hd => Excl.withSk (a := c.a) rfl (H.win i cl d hi hd),
      fun hbt k d g hk => Excl.withSk (a := c.a) rfl (H.ent hbt k d g hk), H.bor⟩

theorem Conf.PH.init (b zst : Bool) : (Conf.init (α := α) zst).PH b where
  mid := by intro i cl d g hi; simp [Conf.init] at hi
  win := by intro i cl d hi; simp [Conf.init] at hi
  ent := by intro _ k d g hk; simp [Conf.get, Conf.init] at hk
  bor := by intro i cl k hi; simp [Conf.init] at hi

/-! ## Calls in flight -/

theorem opOK.mono {a a' : Arena α} {cl : Call α} (ev : AEvo a a') (h : opOK a cl) : opOK a' cl := by
  simp only [opOK] at h ⊢
  split at h <;> first | trivial | exact h | skip
  obtain ⟨h1, d, h2, h3, h4⟩ := h
  refine ⟨h1, d, h2, Nat.lt_of_lt_of_le h3 ev.evo.next, fun x hx => ?_⟩
  obtain ⟨h5, h6, h7⟩ := h4 x hx
  rw [ev.evo.lab d h3, ev.evo.lab x h5]
  exact ⟨Nat.lt_of_lt_of_le h5 ev.evo.next, h6, h7⟩

theorem opOK_step {a a' : Arena α} {cl : Call α} {n : Next α} {ts : List ATask} {o : List Nat} {T : List AT} (I : HInv a.b (pcT cl.pc ++ T))
    (e : PStep a cl.pc a' n) (h : opOK a cl) : opOK a' { cl with pc := n.pc, tasks := ts, out := o } := by
  have S := I.good.shape.toDShape
  have kids : ∀ {d : Nat} {v : DataV} {x : Nat}, a.b.getData d = .ok v → .kid x ∈ kidsFg v →
      d < a.b.sk.next ∧ x < a.b.sk.next ∧ (a.b.sk.lab d).up (a.b.sk.lab x) ∧ a.b.sk.lab d ≠ a.b.sk.lab x := by
    intro d v x hd hx
    have hd := getData_some hd
    obtain ⟨s, hs⟩ := ref_kidsFg (v := v) (List.mem_map.2 ⟨.kid x, hx, rfl⟩)
    obtain ⟨_, hl, vx, hvx⟩ := S.dataKid d v s x hd hs
    rw [hl]
    exact ⟨I.base.lt hd, I.base.lt hvx, Lab.up_child _ _, fun e => Lab.child_ne _ _ e.symm⟩
  simp only [opOK] at h ⊢
  generalize cl.pc = pc at e h
  cases e with
  | im2 d g v hd h1 =>
    exact ⟨h.1, d, h.2, I.base.lt (getData_some hd), fun x hx => (kids hd hx).2⟩
  | imKid c todo g r acc v hd h1 =>
    obtain ⟨h2, d, h3, h4, h5⟩ := h
    refine ⟨h2, d, h3, h4, fun x hx => ?_⟩
    rcases List.mem_append.1 hx with hx | hx
    · obtain ⟨_, h6, h7, h8⟩ := kids hd hx
      obtain ⟨_, h9, h10⟩ := h5 c (List.mem_cons_self ..)
      refine ⟨h6, Lab.up_trans h9 h7, fun e => h10 ?_⟩
      have h7 : (a.b.sk.lab c).up (a.b.sk.lab x) := h7
      rw [show a.b.sk.lab d = a.b.sk.lab x from e] at h9 ⊢
      exact Lab.up_antisymm h9 h7
    · exact h5 x (List.mem_cons_of_mem _ (by simpa using hx))
  | imKidNo c todo g r acc v hd h1 =>
    obtain ⟨h2, d, h3, h4, h5⟩ := h
    exact ⟨h2, d, h3, h4, fun x hx => h5 x (List.mem_cons_of_mem _ hx)⟩
  | imVal w todo g r acc =>
    obtain ⟨h2, d, h3, h4, h5⟩ := h
    exact ⟨h2, d, h3, h4, fun x hx => h5 x (List.mem_cons_of_mem _ hx)⟩
  | _ => first | trivial | exact h | exact h.1

theorem push_mutb {a a' : Arena α} {pc : Pc α} {n : Next α} {e : Ent} (P : PStep a pc a' n) (hk : e ∈ n.push) (hm : e.mutb = true) :
    ∃ d g ok, pc = .gmOpenD d g ok ∧ e.h = .strong d g := by
  cases P with
  | gmOpenD d g ok => simp at hk; subst hk; exact ⟨d, g, ok, rfl, rfl⟩
  | split | cutF | cutB => simp at hk; rcases hk with rfl | rfl <;> cases hm
  | _ => simp at hk <;> (try subst hk) <;> simp_all

/-- Calls keep what they are, and once finished stay so. -/
theorem step_calls {i : Nat} (h : c.step i = .ok c') {j : Nat} {clj : Call α} (hj : c'.calls[j]? = some clj) :
    ∃ cl, c.calls[j]? = some cl ∧ clj.op = cl.op ∧ (clj.fin = false → cl.fin = false) ∧ clj.on = cl.on := by
  cases CStep.of h with
  | none h => exact ⟨clj, hj, rfl, id, rfl⟩
  | task cl t ts a' new hi ht e =>
    rcases after_calls hi hj with ⟨rfl, rfl⟩ | ⟨_, hj⟩
    · exact ⟨cl, hi, rfl, fun _ => by simp [Call.fin, ht], rfl⟩
    · exact ⟨clj, hj, rfl, id, rfl⟩
  | pc cl a' n hi ht e2 =>
    rcases after_calls hi hj with ⟨rfl, rfl⟩ | ⟨_, hj⟩
    · refine ⟨cl, hi, rfl, fun hf => not_fin fun r hr => ?_, rfl⟩
      have P := PStep.of e2
      rw [hr] at P
      cases P
      simp [Call.fin, Pc.isDone] at hf
    · exact ⟨clj, hj, rfl, id, rfl⟩

theorem Conf.Clear.step {b : Bool} {i : Nat} (L : c.Clear b) (B : c.BI) (ev : AEvo c.a c'.a) (h : c.step i = .ok c') : c'.Clear b := by
  have up : ∀ {cl clj : Call α} {u}, clj.op = cl.op → clj.on = cl.on → clj.upOn = some u → cl.upOn = some u := by
    intro cl clj u h1 h2 h3
    rw [Call.upOn_some] at h3 ⊢
    rw [← h1, ← h2]; exact h3
  refine ⟨fun j clj hj => ?_, fun j clj d hj hd => ?_, fun i1 cl1 u j1 clj1 d hi1 hf1 hu hj1 hfj hd hup => ?_,
    fun i1 cl1 u k d g hi1 hf1 hu hb hk hup => ?_⟩
  · cases CStep.of h with
    | none h => exact L.ops j clj hj
    | task cl t ts a' new hi ht e =>
      rcases after_calls hi hj with ⟨rfl, rfl⟩ | ⟨_, hj⟩
      · exact (L.ops j cl hi).mono ev
      · exact (L.ops j clj hj).mono ev
    | pc cl a' n hi ht e2 =>
      rcases after_calls hi hj with ⟨rfl, rfl⟩ | ⟨_, hj⟩
      · have I : HInv c.a.b (pcT cl.pc ++ c.rest j) := by
          refine (B.heap.perm (Conf.T_perm hi)).count fun t ht' => ?_
          simp only [callT, ht, List.flatMap_nil, List.nil_append]
        exact opOK_step (cl := cl) I (.of e2) (L.ops j cl hi)
      · exact (L.ops j clj hj).mono ev
  · obtain ⟨cl, h1, _, _, h2⟩ := step_calls h hj
    exact Nat.lt_of_lt_of_le (L.lt j cl d h1 (by rw [← h2]; exact hd)) ev.evo.next
  · obtain ⟨cl, h1, h2, h3, h7⟩ := step_calls h hi1
    obtain ⟨clj, h4, h5, h6, h8⟩ := step_calls h hj1
    have hu := up h2 h7 hu
    rw [h8] at hd
    have e1 := ev.evo.lab u (L.lt i1 cl u h1 (Call.upOn_some.1 hu).2)
    have e2 := ev.evo.lab d (L.lt j1 clj d h4 hd)
    rw [e1, e2] at hup ⊢
    rw [h5]
    exact L.calls i1 cl u j1 clj d h1 (h3 hf1) hu h4 (h6 hfj) hd hup
  · obtain ⟨cl, h1, h2, h3, h7⟩ := step_calls h hi1
    have hu := up h2 h7 hu
    have e1 := ev.evo.lab u (L.lt i1 cl u h1 (Call.upOn_some.1 hu).2)
    have old : c.get k = some ⟨.strong d g, true⟩ → False := fun hk => by
      have e2 := ev.evo.lab d (B.heap.lt (ref_mem_aS (Conf.get_tok' hk (by simp [entT]))))
      rw [e1, e2] at hup
      exact L.ents i1 cl u k d g h1 (h3 hf1) hu hb hk hup
    cases CStep.of h with
    | none h => exact old hk
    | task cl t ts a' new hi ht e =>
      rcases after_get hk with hk | ⟨_, hk⟩
      · exact old hk
      · cases hk
    | pc cl0 a' n hi ht e2 =>
      rcases after_get hk with hk | ⟨_, hk⟩
      · exact old hk
      · obtain ⟨d', g', ok, hp, he⟩ := push_mutb (.of e2) hk rfl
        cases he
        have ho := L.ops i cl0 hi
        simp only [opOK, hp] at ho
        have e2 := ev.evo.lab d (L.lt i cl0 d hi ho.2)
        rw [e1, e2] at hup
        have := (L.calls i1 cl u i cl0 d h1 (h3 hf1) hu hi (not_fin (by simp [hp])) ho.2 hup).2 hb
        rw [ho.1] at this; cases this

theorem start_opOK {op : Op α} (h : SStep c op c') (ih : ∀ (i : Nat) cl, c.calls[i]? = some cl → opOK c.a cl) :
    ∀ (j : Nat) clj, c'.calls[j]? = some clj → opOK c.a clj := by
  intro j clj hj
  cases h with
  | upgrade k d g b hk =>
    rcases shared_calls hj with h | ⟨_, rfl⟩
    · exact ih j clj h
    · exact ⟨rfl, by simp [Conf.node, hk]⟩
  | getMut k d g hk hb | intoMut k d g hk hb =>
    rcases taking_calls hj with h | ⟨_, rfl⟩
    · exact ih j clj h
    · exact ⟨rfl, by simp [Conf.node, hk]⟩
  | _ => first
    | exact ih j clj hj
    | (rcases plain_calls hj with h | ⟨_, rfl⟩
       · exact ih j clj h
       · trivial)
    | (rcases shared_calls hj with h | ⟨_, rfl⟩
       · exact ih j clj h
       · first | trivial | rfl)
    | (rcases taking_calls hj with h | ⟨_, rfl⟩
       · exact ih j clj h
       · first | trivial | rfl)

theorem Conf.node_lt (B : c.BI) {k d : Nat} (h : c.node k = some d) : d < c.a.b.sk.next := by
  simp only [Conf.node] at h
  split at h
  · next hk => cases h; exact B.heap.lt (ref_mem_aS (Conf.get_tok' hk (by simp [entT])))
  · next hk => subst h; exact (B.ents k _ hk d rfl).1
  · cases h

/-- A new call is about something that is there. -/
theorem start_on_lt (B : c.BI) {op : Op α} (h : SStep c op c') {cl : Call α} (hj : c'.calls[c.calls.length]? = some cl) {d : Nat}
    (hd : cl.on = some d) : d < c.a.b.sk.next := by
  have old : c.calls[c.calls.length]? = some cl → False := fun h => by
    have := (List.getElem?_eq_some_iff.1 h).1; omega
  cases h <;> first
    | exact (old hj).elim
    | (rcases plain_calls hj with h | ⟨_, rfl⟩
       · exact (old h).elim
       · cases hd)
    | (rcases shared_calls hj with h | ⟨_, rfl⟩
       · exact (old h).elim
       · exact c.node_lt B hd)
    | (rcases taking_calls hj with h | ⟨_, rfl⟩
       · exact (old h).elim
       · exact c.node_lt B hd)

theorem part_iff {x y : Nat} : c.part x y = true ↔ (c.a.b.sk.lab x).up (c.a.b.sk.lab y) := by
  simp only [Conf.part, Bool.and_eq_true, beq_iff_eq, List.isSuffixOf_iff_suffix, Lab.up]

theorem proper_iff {x y : Nat} : c.proper x y = true ↔ (c.a.b.sk.lab x).up (c.a.b.sk.lab y) ∧ c.a.b.sk.lab x ≠ c.a.b.sk.lab y := by
  simp only [Conf.proper, Bool.and_eq_true, part_iff, bne_iff_ne]

theorem busy_false {p : Op α → Bool} {q : Nat → Bool} (h : c.busy p q = false) {i : Nat} {cl : Call α} (hi : c.calls[i]? = some cl)
    (hf : cl.fin = false) (ho : p cl.op = true) {d : Nat} (hd : cl.on = some d) : q d = false := by
  simp only [Conf.busy, List.any_eq_false] at h
  have := h cl (List.mem_of_getElem? hi)
  simpa [hf, ho, hd] using this

theorem busy_of {p : Op α → Bool} {q : Nat → Bool} (h : ∀ (i : Nat) cl, c.calls[i]? = some cl → cl.fin = false → p cl.op = false) :
    c.busy p q = false := by
  simp only [Conf.busy, List.any_eq_false]
  intro cl hm
  obtain ⟨i, hi⟩ := List.getElem?_of_mem hm
  cases hf : cl.fin with
  | true => simp
  | false => simp [h i cl hi hf]

theorem lent_false {q : Nat → Bool} (h : c.lent q = false) {k d g : Nat} (hk : c.get k = some ⟨.strong d g, true⟩) : q d = false := by
  simp only [Conf.lent, List.any_eq_false] at h
  have := h _ (List.mem_of_getElem? (Conf.get_some hk))
  simpa using this

theorem flying_false {p : Op α → Bool} (h : c.flying p = false) {i : Nat} {cl : Call α} (hi : c.calls[i]? = some cl) (hf : cl.fin = false) :
    p cl.op = false := by
  simp only [Conf.flying, List.any_eq_false] at h
  have := h cl (List.mem_of_getElem? hi)
  simpa [hf] using this

theorem mutInUse_false (h : c.mutInUse = false) {k : Nat} {e : Ent} (hk : c.get k = some e) : e.mutb = false := by
  simp only [Conf.mutInUse, List.any_eq_false] at h
  have := h (some e) (List.mem_of_getElem? (Conf.get_some hk))
  simpa using this

/-- What is required of a call that begins. -/
def Conf.ok (b : Bool) (c : Conf α) (op : Op α) : Prop := if b then c.strict op = true else c.careful op = true

theorem Conf.Clear.start {b : Bool} {op : Op α} (L : c.Clear b) (B : c.BI) (h : c.start op = some c') (ho : c.ok b op) : c'.Clear b := by
  have hs := SStep.of h
  have ea := (Conf.start_T h).2
  have getm : ∀ {k d g}, c'.get k = some ⟨.strong d g, true⟩ → c.get k = some ⟨.strong d g, true⟩ := by
    intro k d g hk
    rcases start_get hs hk with h | ⟨_, _, h⟩ | ⟨_, _, _, _, h⟩
    · exact h
    · cases h
    · cases h
  have up : ∀ {k u}, op = .upgrade k → c.node k = some u → c.busy Op.isIntoMut (fun d => c.proper d u) = false ∧
      (b = true → c.busy Op.isGetMut (fun d => c.part d u) = false ∧ c.lent (fun d => c.part d u) = false) := by
    rintro k u rfl hk
    cases b <;> simp_all [Conf.ok, Conf.strict, Conf.careful]
  have im : ∀ {k d}, op = .intoMut k → c.node k = some d → c.busy Op.isUpgrade (fun u => c.proper d u) = false := by
    rintro k d rfl hk
    cases b <;> simp_all [Conf.ok, Conf.strict, Conf.careful]
  have gm : ∀ {k d}, b = true → op = .getMut k → c.node k = some d → c.busy Op.isUpgrade (fun u => c.part d u) = false := by
    rintro k d hb rfl hk
    cases b <;> simp_all [Conf.ok, Conf.strict]
  have calls : ∀ {j : Nat} {cl : Call α}, c'.calls[j]? = some cl → c.calls[j]? = some cl ∨ (cl.op = op ∧ j = c.calls.length ∧
      (∀ d, cl.on = some d → d < c.a.b.sk.next) ∧ ∀ k, op = .upgrade k ∨ op = .getMut k ∨ op = .intoMut k → cl.on = c.node k) := by
    intro j cl hj
    rcases start_call hs hj with h | ⟨h1, h2, _, _⟩
    · exact .inl h
    · subst h1
      exact .inr ⟨h2, rfl, fun d hd => start_on_lt B hs hj hd, fun k hk => start_on hs hj hk⟩
  have isUp : op.isUpgrade = true → ∃ k, op = .upgrade k := by cases op <;> simp [Op.isUpgrade]
  have isIm : op.isIntoMut = true → ∃ k, op = .intoMut k := by cases op <;> simp [Op.isIntoMut]
  have isGm : op.isGetMut = true → ∃ k, op = .getMut k := by cases op <;> simp [Op.isGetMut]
  refine ⟨fun j clj hj => by rw [ea]; exact start_opOK hs L.ops j clj hj, fun j clj d hj hd => ?_,
    fun i cl u j clj d hi hf hu hj hfj hd hup => ?_, fun i cl u k d g hi hf hu hb hk hup => ?_⟩
  · rw [ea]
    rcases calls hj with hj | ⟨_, _, h1, _⟩
    · exact L.lt j clj d hj hd
    · exact h1 d hd
  · rw [ea] at hup ⊢
    have hne : ∀ {x y : Nat}, c.proper x y = false → (c.a.b.sk.lab x).up (c.a.b.sk.lab y) → c.a.b.sk.lab y = c.a.b.sk.lab x := by
      intro x y h1 h2
      refine Decidable.byContradiction fun h3 => ?_
      have := proper_iff.2 ⟨h2, fun e => h3 e.symm⟩
      rw [h1] at this; cases this
    obtain ⟨hu1, hu2⟩ := Call.upOn_some.1 hu
    rcases calls hi with hi | ⟨e1, k1, _, o1⟩ <;> rcases calls hj with hj | ⟨e2, k2, _, o2⟩
    · exact L.calls i cl u j clj d hi hf hu hj hfj hd hup
    · rw [e2]
      constructor
      · intro h1
        obtain ⟨k, hk⟩ := isIm h1
        rw [o2 k (.inr (.inr hk))] at hd
        exact hne (busy_false (im hk hd) hi hf hu1 hu2) hup
      · intro hb
        cases h1 : op.isGetMut with
        | false => rfl
        | true =>
          obtain ⟨k, hk⟩ := isGm h1
          rw [o2 k (.inr (.inl hk))] at hd
          have := busy_false (gm hb hk hd) hi hf hu1 hu2
          rw [part_iff.2 hup] at this; cases this
    · rw [e1] at hu1
      obtain ⟨k, hk⟩ := isUp hu1
      rw [o1 k (.inl hk)] at hu2
      obtain ⟨h1, h2⟩ := up hk hu2
      refine ⟨fun h3 => hne (busy_false h1 hj hfj h3 hd) hup, fun hb => ?_⟩
      cases h3 : clj.op.isGetMut with
      | false => rfl
      | true =>
        have := busy_false (h2 hb).1 hj hfj h3 hd
        rw [part_iff.2 hup] at this; cases this
    · rw [e1] at hu1
      rw [e2]
      cases op <;> simp_all [Op.isUpgrade, Op.isIntoMut, Op.isGetMut]
  · rw [ea] at hup
    have hk := getm hk
    obtain ⟨hu1, hu2⟩ := Call.upOn_some.1 hu
    rcases calls hi with hi | ⟨e1, k1, _, o1⟩
    · exact L.ents i cl u k d g hi hf hu hb hk hup
    · rw [e1] at hu1
      obtain ⟨k', hk'⟩ := isUp hu1
      rw [o1 k' (.inl hk')] at hu2
      have := lent_false ((up hk' hu2).2 hb).2 hk
      rw [part_iff.2 hup] at this; cases this

theorem Conf.Clear.write {b : Bool} {e : Ent} {j : Nat} {x : α} (L : c.Clear b) (h : c.write e j x = .ok c') : c'.Clear b := by
  rcases Conf.write_cases h with rfl | ⟨b, i0, rfl⟩
  · exact L
  · exact ⟨L.ops, L.lt, L.calls, L.ents⟩

theorem Conf.Clear.init (b zst : Bool) : (Conf.init (α := α) zst).Clear b where
  ops := by intro i cl hi; simp [Conf.init] at hi
  lt := by intro i cl _ hi; simp [Conf.init] at hi
  calls := by intro i cl _ _ _ _ hi; simp [Conf.init] at hi
  ents := by intro i cl _ _ _ _ hi; simp [Conf.init] at hi

/-! ## All invariants -/

structure Conf.IA (b : Bool) (c : Conf α) : Prop where
  bi : c.BI
  gf : c.GFI
  cov : c.CovI
  clear : c.Clear b
  ph : c.PH b

theorem Conf.IA.step {b : Bool} {i : Nat} (A : c.IA b) : ∃ c', c.step i = .ok c' ∧ c'.IA b ∧ GEvo c.a c'.a := by
  obtain ⟨c', e, B', ev⟩ := A.bi.step (A.ph.fgSafe A.bi i)
  obtain ⟨F', ge⟩ := A.gf.step A.bi ev e
  exact ⟨c', e, ⟨B', F', A.cov.step A.gf A.bi B' ge e, A.clear.step A.bi ev e, A.ph.step A.clear A.cov A.gf A.bi B' ev e⟩, ge⟩

theorem Conf.IA.start {b : Bool} {op : Op α} (A : c.IA b) (h : c.start op = some c') (hop : c.ok b op) : c'.IA b :=
  ⟨A.bi.start h, A.gf.start h, A.cov.start h, A.clear.start A.bi h hop, A.ph.start A.bi h⟩

theorem Conf.IA.write {b : Bool} {k : Nat} {e : Ent} {j : Nat} {x : α} (A : c.IA b) (hk : c.get k = some e) (h : c.write e j x = .ok c') :
    c'.IA b := by
  obtain ⟨c2, e2, B', _⟩ := A.bi.write hk j x
  rw [h] at e2; cases e2
  exact ⟨B', A.gf.write h, A.cov.write h, A.clear.write h, A.ph.write h⟩

variable {P : Rules α} {zst : Bool}

theorem Conf.Reach.all {b : Bool} (hP : ∀ c op, Conf.Reach P zst c → P c op → c.ok b op) (h : Conf.Reach P zst c) : c.IA b := by
  induction h with
  | init => exact ⟨.init zst, .init zst, .init zst, .init b zst, .init b zst⟩
  | run _ i e ih =>
    obtain ⟨c2, e2, h2, _⟩ := ih.step (i := i)
    rw [e] at e2; cases e2; exact h2
  | start h op hp e ih => exact ih.start e (hP _ op h hp)
  | write _ k en j x hk _ e ih => exact ih.write hk e

theorem Conf.Reach.IA (hP : Strict P) (h : Conf.Reach P zst c) : c.IA true := h.all fun c op => hP zst c op

theorem Conf.Reach.IA' (hP : Tame P) (h : Conf.Reach P zst c) : c.IA false := h.all fun c op => hP zst c op

theorem Conf.Reach.BI (hP : Tame P) (h : Conf.Reach P zst c) : c.BI := (h.IA' hP).bi

theorem Conf.Reach.GFI (hP : Tame P) (h : Conf.Reach P zst c) : c.GFI := (h.IA' hP).gf

theorem Conf.Reach.step (hP : Tame P) (h : Conf.Reach P zst c) (i : Nat) : ∃ c', c.step i = .ok c' ∧ GEvo c.a c'.a := by
  obtain ⟨c', h1, _, h2⟩ := (h.IA' hP).step (i := i); exact ⟨c', h1, h2⟩

/-! ## Programs that leave out some of the calls -/

theorem Conf.Reach.ops {Q : Op α → Prop} (h : Conf.Reach (only Q) zst c) : ∀ (i : Nat) cl, c.calls[i]? = some cl → Q cl.op := by
  induction h with
  | init => intro i cl hi; simp [Conf.init] at hi
  | run _ i e ih =>
    intro j clj hj
    obtain ⟨cl, h1, h2, _⟩ := step_calls e hj
    rw [h2]; exact ih j cl h1
  | start _ op hp e ih =>
    intro j clj hj
    rcases start_call (.of e) hj with h | ⟨_, h2, _, _⟩
    · exact ih j clj h
    · rw [h2]; exact hp
  | write _ k en j x hk _ e ih =>
    rcases Conf.write_cases e with rfl | ⟨b, i, rfl⟩
    · exact ih
    · exact ih

theorem strict_noUpgrade {Q : Op α → Prop} (hQ : ∀ op, Q op → op.NoUpgrade) : Strict (only Q) := by
  intro zst c op hc hp
  have hu : ∀ q, c.busy Op.isUpgrade q = false := fun q => busy_of fun i cl hi _ => by
    have := hQ _ (hc.ops i cl hi)
    cases ho : cl.op <;> simp_all [Op.isUpgrade, Op.NoUpgrade]
  have := hQ op hp
  cases op <;> simp_all [Conf.strict, Op.NoUpgrade]

theorem tame_noUpgrade {Q : Op α → Prop} (hQ : ∀ op, Q op → op.NoUpgrade) : Tame (only Q) := (strict_noUpgrade hQ).tame

theorem tame_noIntoMut {Q : Op α → Prop} (hQ : ∀ op, Q op → op.NoIntoMut) : Tame (only Q) := by
  intro zst c op hc hp
  have hu : ∀ q, c.busy Op.isIntoMut q = false := fun q => busy_of fun i cl hi _ => by
    have := hQ _ (hc.ops i cl hi)
    cases ho : cl.op <;> simp_all [Op.isIntoMut, Op.NoIntoMut]
  have := hQ op hp
  cases op <;> simp_all [Conf.careful, Op.NoIntoMut]

/-- It is enough that `upgrade` and `into_mut` do not overlap at all. -/
theorem careful_of_flying {op : Op α} (h1 : op.isUpgrade = true → c.flying Op.isIntoMut = false)
    (h2 : op.isIntoMut = true → c.flying Op.isUpgrade = false) : c.careful op = true := by
  have key : ∀ {p : Op α → Bool} {q}, c.flying p = false → c.busy p q = false := fun h => busy_of fun i cl hi hf => flying_false h hi hf
  cases op with
  | upgrade k => simp [Conf.careful, key (h1 rfl)]
  | intoMut k => simp [Conf.careful, key (h2 rfl)]
  | _ => rfl

/-- It is enough that `upgrade` overlaps neither `into_mut` nor `get_mut` and the use of its result. -/
theorem strict_of_flying {op : Op α} (h1 : op.isUpgrade = true → c.flying Op.isIntoMut = false ∧ c.flying Op.isGetMut = false ∧ c.mutInUse = false)
    (h2 : op.isIntoMut = true ∨ op.isGetMut = true → c.flying Op.isUpgrade = false) : c.strict op = true := by
  have key : ∀ {p : Op α → Bool} {q}, c.flying p = false → c.busy p q = false := fun h => busy_of fun i cl hi hf => flying_false h hi hf
  have lent : ∀ {q}, c.mutInUse = false → c.lent q = false := by
    intro q h
    simp only [Conf.lent, List.any_eq_false]
    intro o ho
    simp only [Conf.mutInUse, List.any_eq_false] at h
    have := h o ho
    cases o with
    | none => simp
    | some e => have h6 : e.mutb = false := by simpa using this
                simp [h6]
  cases op with
  | upgrade k =>
    obtain ⟨h3, h4, h5⟩ := h1 rfl
    simp [Conf.strict, key h3, key h4, lent h5]
  | intoMut k => simp [Conf.strict, key (h2 (.inl rfl))]
  | getMut k => simp [Conf.strict, key (h2 (.inr rfl))]
  | _ => rfl

/-- The disciplines themselves, as rules. -/
theorem tame_careful : Tame (fun (c : Conf α) op => c.careful op = true) := fun _ _ _ _ h => h

theorem strict_strict : Strict (fun (c : Conf α) op => c.strict op = true) := fun _ _ _ _ h => h

end
end Verif.Arc
