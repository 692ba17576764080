import Verif.Arc.Proofs.Values2
/-!
# The items that handles read: `upgrade`
-/

namespace Verif.Arc
open Verif.Spec (Side Slot Rng End)
open Verif.Rc
variable {α : Type} {P : Rules α} {zst : Bool} {c c0 c1 c2 c' : Conf α} {W : Nat → Nat → Prop} {M : Conf α → Nat → Prop}

theorem live_list {f : Nat → Slot α} {off len : Nat} (hx : ∀ i, i < len → ∃ x, f (off + i) = .live x) :
    ∃ xs : List α, xs.length = len ∧ ∀ i x, xs[i]? = some x → f (off + i) = .live x := by
  induction len with
  | zero => exact ⟨[], rfl, fun i x h => by simp at h⟩
  | succ n ih =>
    obtain ⟨xs, h1, h2⟩ := ih fun i hi => hx i (by omega)
    obtain ⟨x, h3⟩ := hx n (by omega)
    refine ⟨xs ++ [x], by simp [h1], fun i y hy => ?_⟩
    by_cases hi : i < xs.length
    · rw [List.getElem?_append_left hi] at hy; exact h2 i y hy
    · have h4 := (List.getElem?_eq_some_iff.1 hy).1
      have h5 : i = xs.length := by simp at h4; omega
      subst h5
      rw [List.getElem?_append_right (Nat.le_refl _), Nat.sub_self] at hy
      cases hy; rw [h1]; exact h3

theorem would_node {d : Nat} {xs : List α} : c.Would d xs ↔
    ∃ v, c.a.b.sk.node d = some (.data v) ∧ v.len = xs.length ∧ ∀ i x, xs[i]? = some x → c.a.b.slot v.buf (v.off + i) = .live x := by
  constructor
  · rintro ⟨b, off, h1, h2⟩
    simp only [Conf.seen] at h1
    split at h1
    · next v hv =>
      simp only [Option.some.injEq, Seen.shared.injEq] at h1
      obtain ⟨rfl, rfl, h3⟩ := h1
      exact ⟨v, getData_some hv, h3, h2⟩
    · cases h1
  · rintro ⟨v, h1, h2, h3⟩
    exact ⟨v.buf, v.off, by simp [Conf.seen, getData_ok h1, h2], h3⟩

theorem would_of (B : c.BI) {d : Nat} {v : DataV} (h : c.a.b.sk.node d = some (.data v)) : ∃ xs, c.Would d xs := by
  obtain ⟨xs, h1, h2⟩ := live_list (f := c.a.b.slot v.buf) (off := v.off) (len := v.len) fun i hi => B.heap.good.data_items h (by omega) (by omega)
  exact ⟨xs, would_node.2 ⟨v, h, h1.symm, h2⟩⟩

/-- The items of a subslice stay, as long as the subslice is there and nobody may write to them. -/
theorem Evol.would (B' : c'.BI) (ev : Evol W c c') {d : Nat} {xs : List α} (h : c.Would d xs)
    (hW : ∀ v, c.a.b.sk.node d = some (.data v) → ∀ j, v.off ≤ j → j < v.off + v.len → ¬ W v.buf j) :
    c'.a.b.sk.node d = none ∨ c'.Would d xs := by
  obtain ⟨v, h1, h2, h3⟩ := would_node.1 h
  cases hn : c'.a.b.sk.node d with
  | none => exact .inl rfl
  | some n =>
    obtain ⟨v', rfl, e1, e2, e3, _⟩ := ev.evo.evo.data d v n h1 hn
    refine .inr (would_node.2 ⟨v', hn, by omega, fun i x hx => ?_⟩)
    have hi := (List.getElem?_eq_some_iff.1 hx).1
    obtain ⟨y, hy⟩ := B'.heap.good.data_items hn (j := v'.off + i) (by omega) (by omega)
    rw [e1, e2] at hy ⊢
    have h4 := h3 i x hx
    rcases ev.slot v.buf (v.off + i) with h5 | ⟨h5, _⟩ | ⟨z, _, h5⟩ | ⟨h5, _⟩
    · rw [h5]; exact h4
    · rw [h4] at h5; cases h5
    · rw [hy] at h5; rcases h5 with h5 | h5 <;> cases h5
    · exact absurd h5 (hW v h1 _ (by omega) (by omega))

/-- While an `upgrade` is on its way, nobody may write to items of the subslice, if it is there. -/
theorem up_excl (A : c.IA true) {i : Nat} {cl : Call α} (hi : c.calls[i]? = some cl) (hf : cl.fin = false) {d : Nat} (hu : cl.upOn = some d)
    {v : DataV} (hd : c.a.b.sk.node d = some (.data v)) {j : Nat} (h1 : v.off ≤ j) (h2 : j < v.off + v.len) {k : Nat}
    (hk : c.Exclusive k) : ¬ c.Shows k v.buf j := by
  rintro ⟨⟨hh, m⟩, off, len, hg, hr, i1, i2⟩
  obtain ⟨e', hg', hw⟩ := hk
  rw [hg] at hg'; cases hg'
  have B := A.bi
  cases hh with
  | weak d g => cases hr
  | strong z g =>
    simp only [Conf.writable] at hw
    subst hw
    have hno := A.clear.ents i cl d k z g hi hf hu rfl hg
    have X := A.ph.ent rfl k z g hg
    have S := B.heap.good.shape
    obtain ⟨vz, e1, e2⟩ := Arc.bind_ok hr
    have e3 := pure_ok e2
    simp only [Option.some.injEq, Prod.mk.injEq] at e3
    obtain ⟨e3, e4, e5⟩ := e3
    have hz := getData_some e1
    obtain ⟨y, u, hy, h3, ho⟩ := B.heap.good.owner hd (j := j) h1 h2
    obtain ⟨y', u', hy', h3', ho'⟩ := B.heap.good.owner hz (j := j) (by omega) (by omega)
    have hyy : y = y' := by
      refine Decidable.byContradiction fun hne => ?_
      have hn := Rc.num_le_one (c.a.b.slot v.buf j)
      rw [← B.heap.good.ledger.o v.buf j] at hn
      rw [e3] at ho'
      have := Rc.nsum_le2 hy (B.heap.good.ledger.lt hy) hy' (B.heap.good.ledger.lt hy') hne (fun n => owners n.spans v.buf j)
      omega
    subst hyy
    rcases Rc.Lab.up_comparable h3 h3' with h4 | h4
    · by_cases e : c.a.b.sk.lab d = c.a.b.sk.lab z
      · exact hno (by rw [e]; exact Lab.up_refl _)
      · obtain ⟨q, w, s, hq, hs, _⟩ := parent_live S.toDShape hd hz h4 e
        exact X.link q w s hq hs
    · exact hno h4
  | uniq r =>
    simp only [Conf.range, Except.ok.injEq, Option.some.injEq, Prod.mk.injEq] at hr
    obtain ⟨rb, rfl, rfl⟩ := hr
    have hn := Rc.num_le_one (c.a.b.slot v.buf j)
    rw [← (B.heap.perm (Conf.T_perm hi)).good.ledger.o v.buf j] at hn
    simp only [aG_append, owners_append, callT] at hn
    have o1 : 0 < owners (aG (c.rest i)) v.buf j := by
      refine aG_sub (A := entT ⟨.uniq r, m⟩) (fun t ht => Conf.get_tok hg i ht) ?_
      simp [entT, AT.G, Rc.Span.num, Rc.Reg.span, i1, i2, rb]
    obtain ⟨y, u, hy, _, ho⟩ := B.heap.good.owner hd (j := j) h1 h2
    have := Rc.nsum_le hy (B.heap.good.ledger.lt hy) (fun n => owners n.spans v.buf j)
    omega

theorem up_gotten (B : c.BI) (B' : c'.BI) {i d : Nat} {op : Op α} {bo : Option Nat} (hi : c.calls[i]? = some { op, pc := .up (some d), borrow := bo, on := some d })
    (e : c.step i = .ok c') : (∃ cl, c'.calls[i]? = some cl ∧ cl.op = op ∧ cl.tasks = [] ∧ cl.pc = .done .none ∧ cl.out = []) ∨
    (0 < c.a.b.strong d ∧ ∀ xs, c.Would d xs → ∃ v b off, Gotten i op xs v b off c') := by
  have hlen := (List.getElem?_eq_some_iff.1 hi).1
  cases CStep.of e with
  | none h => rw [hi] at h; cases h
  | task cl tk ts a' new hi2 ht e2 => rw [hi] at hi2; cases hi2; cases ht
  | pc cl a' nx hi2 ht e2 =>
    rw [hi] at hi2; cases hi2
    have hi' := List.getElem?_set_self
      (a := { op, pc := nx.pc, tasks := nx.tasks, borrow := bo, on := some d, out := [] ++ List.range' c.hs.length nx.push.length }) hlen
    cases PStep.of e2 with
    | upNo _ hs => exact .inl ⟨_, hi', rfl, rfl, rfl, rfl⟩
    | up _ h hs er =>
      refine .inr ⟨Nat.pos_of_ne_zero hs, fun xs hx => ?_⟩
      obtain ⟨v, k1, k2, k3⟩ := would_node.1 hx
      obtain ⟨h', e3, _, e4, e5⟩ := B.heap.incS (Nat.pos_of_ne_zero hs)
      rw [er] at e3; cases e3
      have hn : (c.a.withB h).b.sk.node d = some (.data v) := by show h.sk.node d = _; rw [e4]; exact k1
      refine ⟨.shared v.buf v.off v.len, v.buf, v.off, .inl (by rw [k2]), fun j x hj => ?_, _, hi', rfl, rfl, .inl ⟨rfl, rfl, fun _ => ?_⟩⟩
      · show h.slot _ _ = _
        rw [e5]; exact k3 j x hj
      · exact ⟨_, _, _, At.of B'.heap.base (a := c.a.withB h) hn, .inl ⟨rfl, rfl⟩⟩

theorem up_reads (hP : PStrict P) (hr : Conf.PReach P zst c1) {i d : Nat} {op : Op α} {bo : Option Nat} (hop : op.isUpgrade = true)
    (hi : c1.calls[i]? = some { op, pc := .up (some d), borrow := bo, on := some d }) (hlt : d < c1.a.b.sk.next) (hk : c1.a.b.sk.kind d = .data)
    (hM : ∀ c k, c.outOf i k → M c k) (ap : Apart P M c1 c) :
    ∃ cl, c.calls[i]? = some cl ∧ cl.op = op ∧ (cl.fin = true → ((cl.pc = .done .none ∨ cl.pc = .done .panic) ∧ cl.out = []) ∨
      ∃ m xs, cl.pc = .done .handle ∧ cl.out = [m] ∧ c1.Would d xs ∧ c.Reads m xs) := by
  have hT := hP.tame
  have key : Conf.PReach P zst c ∧ ((c.calls[i]? = some { op, pc := .up (some d), borrow := bo, on := some d } ∧ d < c.a.b.sk.next ∧
        (c.a.b.sk.node d = none ∨ ∃ xs, c1.Would d xs ∧ c.Would d xs)) ∨
      (∃ c0 xs v b off, Conf.PReach P zst c0 ∧ c1.Would d xs ∧ Gotten i op xs v b off c0 ∧ Apart P M c0 c) ∨
      (∃ cl, c.calls[i]? = some cl ∧ cl.op = op ∧ cl.tasks = [] ∧ cl.pc = .done .none ∧ cl.out = [])) := by
    induction ap with
    | refl =>
      refine ⟨hr, .inl ⟨hi, hlt, ?_⟩⟩
      have B := hr.BI hT
      cases hn : c1.a.b.sk.node d with
      | none => exact .inl rfl
      | some n =>
        obtain ⟨v, rfl⟩ : ∃ v, n = .data v := data_of_kind (by rw [← B.heap.base.kinds _ _ hn]; exact hk)
        obtain ⟨xs, hx⟩ := would_of B hn
        exact .inr ⟨xs, hx, hx⟩
    | @step c c' r j e ih =>
      have B := ih.1.BI hT
      have hr' := ih.1.run j e
      have B' := hr'.BI hT
      refine ⟨hr', ?_⟩
      rcases ih.2 with ⟨k1, k2, k3⟩ | ⟨c0, xs, v, b, off, k1, k2, k3, k4⟩ | ⟨cl, k1, k2, k3, k4, k5⟩
      · by_cases hj : j = i
        · subst hj
          rcases up_gotten B B' k1 e with h | ⟨h1, h2⟩
          · exact .inr (.inr h)
          · obtain ⟨n, hn⟩ := B.heap.good.ledger.node_of_pos h1
            rcases k3 with k3 | ⟨xs, k3, k4⟩
            · rw [k3] at hn; cases hn
            · obtain ⟨v, b, off, h3⟩ := h2 xs k4
              exact .inr (.inl ⟨_, xs, v, b, off, hr', k3, h3, .refl⟩)
        · have ev : Evol (fun _ _ => False) c c' := .step hT ih.1 e
          refine .inl ⟨?_, Nat.lt_of_lt_of_le k2 ev.evo.evo.next, ?_⟩
          · rw [← k1]
            cases CStep.of e with
            | none _ => rfl
            | task => simp only [Conf.after]; rw [List.getElem?_set_ne hj]
            | pc => simp only [Conf.after]; rw [List.getElem?_set_ne hj]
          · rcases k3 with k3 | ⟨xs, k3, k4⟩
            · exact .inl (ev.evo.evo.dead d k2 k3)
            · exact (ev.would B' k4 fun _ _ _ _ _ h => h).imp id fun h => ⟨xs, k3, h⟩
      · exact .inr (.inl ⟨c0, xs, v, b, off, k1, k2, k3, k4.step j e⟩)
      · refine .inr (.inr ?_)
        by_cases hj : j = i
        · subst hj
          have hlen := (List.getElem?_eq_some_iff.1 k1).1
          cases CStep.of e with
          | none h => rw [k1] at h; cases h
          | task cl2 tk ts a' new hi2 ht e2 => rw [k1] at hi2; cases hi2; rw [k3] at ht; cases ht
          | pc cl2 a' nx hi2 ht e2 =>
            rw [k1] at hi2; cases hi2
            rw [k4] at e2; cases e2
            exact ⟨_, List.getElem?_set_self hlen, k2, rfl, rfl, by simp [k5]⟩
        · refine ⟨cl, ?_, k2, k3, k4, k5⟩
          rw [← k1]
          cases CStep.of e with
          | none _ => rfl
          | task => simp only [Conf.after]; rw [List.getElem?_set_ne hj]
          | pc => simp only [Conf.after]; rw [List.getElem?_set_ne hj]
    | @start c c' r op' hp hM' e ih =>
      have hr' := ih.1.start op' hp e
      refine ⟨hr', ?_⟩
      rcases ih.2 with ⟨k1, k2, k3⟩ | ⟨c0, xs, v, b, off, k1, k2, k3, k4⟩ | ⟨cl, k1, k2, k3, k4, k5⟩
      · have ev : Evol (fun _ _ => False) c c' := .start (ih.1.BI hT).heap.base e
        refine .inl ⟨start_calls_old e k1, Nat.lt_of_lt_of_le k2 ev.evo.evo.next, ?_⟩
        rcases k3 with k3 | ⟨xs, k3, k4⟩
        · exact .inl (ev.evo.evo.dead d k2 k3)
        · exact (ev.would (hr'.BI hT) k4 fun _ _ _ _ _ h => h).imp id fun h => ⟨xs, k3, h⟩
      · exact .inr (.inl ⟨c0, xs, v, b, off, k1, k2, k3, k4.start op' hp hM' e⟩)
      · exact .inr (.inr ⟨cl, start_calls_old e k1, k2, k3, k4, k5⟩)
    | @write c c' r k en j x hk hw hM' e ih =>
      have hr' := ih.1.write k en j x hk hw e
      have hcs : c'.calls = c.calls := by rcases Conf.write_cases e with rfl | ⟨b, i, rfl⟩ <;> rfl
      refine ⟨hr', ?_⟩
      rcases ih.2 with ⟨k1, k2, k3⟩ | ⟨c0, xs, v, b, off, k1, k2, k3, k4⟩ | ⟨cl, k1, k2, k3, k4, k5⟩
      · have ev : Evol (fun b' j' => c.Shows k b' j') c c' :=
          .write (ih.1.BI hT).heap.base (fun b off len hrg hj => ⟨en, off, len, hk, hrg, by omega, by omega⟩) e
        refine .inl ⟨by rw [hcs]; exact k1, Nat.lt_of_lt_of_le k2 ev.evo.evo.next, ?_⟩
        rcases k3 with k3 | ⟨xs, k3, k4⟩
        · exact .inl (ev.evo.evo.dead d k2 k3)
        · exact (ev.would (hr'.BI hT) k4 fun v hv j h1 h2 => up_excl (ih.1.IA hP) k1 rfl (Call.upOn_some.2 ⟨hop, rfl⟩) hv h1 h2 ⟨en, hk, hw⟩).imp id fun h => ⟨xs, k3, h⟩
      · exact .inr (.inl ⟨c0, xs, v, b, off, k1, k2, k3, k4.write k en j x hk hw hM' e⟩)
      · exact .inr (.inr ⟨cl, by rw [hcs]; exact k1, k2, k3, k4, k5⟩)
    | @panic c c' r j e ih =>
      have hr' := ih.1.panic j e
      obtain ⟨cl2, rg, ts, ts', us, s, p⟩ := Panicked.of (ih.1.BI hT).heap e
      have same : ∀ cl, c.calls[i]? = some cl → cl.tasks = [] → c'.calls[i]? = some cl := by
        intro cl h1 h2
        have hj : j ≠ i := by
          rintro rfl
          have := p.call; rw [h1] at this; cases this
          have := p.tasks; rw [h2] at this; cases this
        rw [p.eq]; exact (List.getElem?_set_ne hj).trans h1
      refine ⟨hr', ?_⟩
      rcases ih.2 with ⟨k1, k2, k3⟩ | ⟨c0, xs, v, b, off, k1, k2, k3, k4⟩ | ⟨cl, k1, k2, k3, k4, k5⟩
      · have ev : Evol (fun _ _ => False) c c' := .panic hT ih.1 e
        refine .inl ⟨same _ k1 rfl, Nat.lt_of_lt_of_le k2 ev.evo.evo.next, ?_⟩
        rcases k3 with k3 | ⟨xs, k3, k4⟩
        · exact .inl (ev.evo.evo.dead d k2 k3)
        · exact (ev.would (hr'.BI hT) k4 fun _ _ _ _ _ h => h).imp id fun h => ⟨xs, k3, h⟩
      · exact .inr (.inl ⟨c0, xs, v, b, off, k1, k2, k3, k4.panic j e⟩)
      · exact .inr (.inr ⟨cl, same _ k1 k3, k2, k3, k4, k5⟩)
  rcases key.2 with ⟨k1, _⟩ | ⟨c0, xs, v, b, off, k1, k2, k3, k4⟩ | ⟨cl, k1, k2, k3, k4, k5⟩
  · exact ⟨_, k1, rfl, fun hf => by simp [Call.fin, Pc.isDone] at hf⟩
  · obtain ⟨cl, q1, q2, q3⟩ := k3.reads hP k1 hM k4
    refine ⟨cl, q1, q2, fun hf => ?_⟩
    have : cl.pc.isDone = true := by simp only [Call.fin, Bool.and_eq_true] at hf; exact hf.2
    rcases q3 this with ⟨m, h1, h2, h3⟩ | ⟨_, h1, h2⟩
    · exact .inr ⟨m, xs, h1, h2, k2, h3⟩
    · exact .inl ⟨.inr h1, h2⟩
  · exact ⟨cl, k1, k2, fun _ => .inl ⟨.inl k4, k5⟩⟩

end Verif.Arc
